import Verif.Duchain.FunctionVars
/-!
# Which variable of a function is denoted (C63): parameters, single declarations, `$this`; what is not found

Continues `FunctionVars.lean`.
-/
namespace KPhp.Denote
open Scopes

/-! ### The parameters of a function stand before its body -/

/-- The node of the innermost construct around something. -/
def headOf (fs : List Frame) : Option Key := fs.head?.bind (·.key)

theorem in_iff {id : Nat} {part : Part} {fs : List Frame} : In id part fs ↔ headOf fs = some ⟨id, part⟩ := by
  unfold In headOf
  cases fs with
  | nil => simp
  | cons fr rest => simp

/-- The nodes of functions in which the things stand are among `ks`. -/
def HeadsIn (ks : List Key) (l : List (Event × List Frame)) : Prop :=
  ∀ e ∈ l, ∀ k, headOf e.2 = some k → k.part ≠ .whole → k ∈ ks

/-- The first stands not in the body of the function in whose parameters the second stands. -/
def Ordered (e e' : Event × List Frame) : Prop := ∀ id, headOf e.2 = some ⟨id, .body⟩ → headOf e'.2 ≠ some ⟨id, .params⟩

theorem HeadsIn.mono {ks ks' : List Key} {l : List (Event × List Frame)} (h : HeadsIn ks l) (hs : ∀ k ∈ ks, k ∈ ks') : HeadsIn ks' l :=
  fun e he k hk hp => hs k (h e he k hk hp)

theorem HeadsIn.append {ks : List Key} {l l' : List (Event × List Frame)} (h : HeadsIn ks l) (h' : HeadsIn ks l') : HeadsIn ks (l ++ l') := by
  intro e he
  rcases List.mem_append.mp he with he | he
  · exact h e he
  · exact h' e he

theorem HeadsIn.cons {ks : List Key} {e : Event × List Frame} {l : List (Event × List Frame)}
    (h : ∀ k, headOf e.2 = some k → k.part ≠ .whole → k ∈ ks) (h' : HeadsIn ks l) : HeadsIn ks (e :: l) := by
  intro e' he
  rcases List.mem_cons.mp he with rfl | he
  · exact h
  · exact h' e' he

theorem HeadsIn.nil {ks : List Key} : HeadsIn ks [] := by intro e he; cases he

theorem ordered_cross {ks ks' : List Key} {l l' : List (Event × List Frame)} (h : HeadsIn ks l) (h' : HeadsIn ks' l')
    (hk : ∀ id, ⟨id, .body⟩ ∈ ks → ⟨id, .params⟩ ∉ ks') : ∀ e ∈ l, ∀ e' ∈ l', Ordered e e' := by
  intro e he e' he' id h1 h2
  exact hk id (h e he _ h1 (by simp)) (h' e' he' _ h2 (by simp))

theorem sites_heads (u : CharClass) (i : Bool) : ∀ (c : Code) (around : List Frame), HeadsIn ((headOf around).toList ++ keys c) (sites u i around c)
  | .empty, _ => .nil
  | .seq a b, around => by
    refine HeadsIn.append ((sites_heads u i a around).mono ?_) ((sites_heads u i b around).mono ?_)
    · intro k hk; simp only [keys, List.mem_append] at hk ⊢; rcases hk with h | h <;> simp [h]
    · intro k hk; simp only [keys, List.mem_append] at hk ⊢; rcases hk with h | h <;> simp [h]
  | .leaf l, around => HeadsIn.cons (fun k hk _ => by simp [hk]) .nil
  | .closure id params hasUses uses body, around => by
    simp only [sites]
    refine HeadsIn.cons (fun k hk _ => by simp [hk]) (HeadsIn.append ((sites_heads u i params _).mono ?_) (HeadsIn.append ?_ ?_))
    · intro k hk; simp only [headOf, List.head?_cons, Option.bind_some, Option.toList_some, keys, List.mem_append, List.mem_cons, List.not_mem_nil, or_false] at hk ⊢
      rcases hk with h | h <;> simp [h]
    · split
      · refine (sites_heads u i uses _).mono ?_
        intro k hk; simp only [headOf, List.head?_cons, Option.bind_some, Option.toList_some, keys, List.mem_append, List.mem_cons, List.not_mem_nil, or_false] at hk ⊢
        rcases hk with h | h <;> simp [h]
      · exact .nil
    · split
      · exact .nil
      · refine (sites_heads u i body _).mono ?_
        intro k hk; simp only [headOf, List.head?_cons, Option.bind_some, Option.toList_some, keys, List.mem_append, List.mem_cons, List.not_mem_nil, or_false] at hk ⊢
        rcases hk with h | h <;> simp [h]
  | .function id name params body, around => by
    simp only [sites]
    refine HeadsIn.cons (fun k hk _ => by simp [hk]) (HeadsIn.append ((sites_heads u i params _).mono ?_) ?_)
    · intro k hk; simp only [headOf, List.head?_cons, Option.bind_some, Option.toList_some, keys, List.mem_append, List.mem_cons, List.not_mem_nil, or_false] at hk ⊢
      rcases hk with h | h <;> simp [h]
    · split
      · exact .nil
      · refine (sites_heads u i body _).mono ?_
        intro k hk; simp only [headOf, List.head?_cons, Option.bind_some, Option.toList_some, keys, List.mem_append, List.mem_cons, List.not_mem_nil, or_false] at hk ⊢
        rcases hk with h | h <;> simp [h]
  | .type id k name members, around => by
    simp only [sites]
    refine HeadsIn.cons (fun k hk _ => by simp [hk]) ?_
    refine (sites_heads u i members _).mono ?_
    intro k hk; simp only [headOf, List.head?_cons, Option.bind_some, Option.toList_some, keys, List.mem_append, List.mem_cons, List.not_mem_nil, or_false] at hk ⊢
    rcases hk with h | h <;> simp [h]
  | .method id name params hasBody body, around => by
    simp only [sites]
    refine HeadsIn.cons (fun k hk _ => by simp [hk]) (HeadsIn.append ((sites_heads u i params _).mono ?_) ?_)
    · intro k hk; simp only [headOf, List.head?_cons, Option.bind_some, Option.toList_some, keys, List.mem_append, List.mem_cons, List.not_mem_nil, or_false] at hk ⊢
      rcases hk with h | h <;> simp [h]
    · split
      · exact .nil
      · refine (sites_heads u i body _).mono ?_
        intro k hk; simp only [headOf, List.head?_cons, Option.bind_some, Option.toList_some, keys, List.mem_append, List.mem_cons, List.not_mem_nil, or_false] at hk ⊢
        rcases hk with h | h <;> simp [h]

/-- A function with a body has parameters. -/
theorem keys_params (id : Nat) : ∀ (c : Code), ⟨id, .body⟩ ∈ keys c → (⟨id, .params⟩ : Key) ∈ keys c
  | .empty, h => by cases h
  | .seq a b, h => by
    simp only [keys, List.mem_append] at h ⊢
    exact h.imp (keys_params id a) (keys_params id b)
  | .leaf _, h => by cases h
  | .closure i p _ us b, h => by
    simp only [keys, List.mem_append, List.mem_cons, Key.mk.injEq, reduceCtorEq, and_false, false_or, and_true] at h ⊢
    rcases h with h | h | h | h
    · exact .inl (.inr (keys_params id p h))
    · exact .inr (.inl (keys_params id us h))
    · exact .inl (.inl h)
    · exact .inr (.inr (keys_params id b h))
  | .function i _ p b, h => by
    simp only [keys, List.mem_append, List.mem_cons, Key.mk.injEq, reduceCtorEq, and_false, false_or, and_true] at h ⊢
    rcases h with h | h | h
    · exact .inl (.inr (keys_params id p h))
    · exact .inl (.inl h)
    · exact .inr (keys_params id b h)
  | .type i _ _ m, h => by
    simp only [keys, List.mem_cons, Key.mk.injEq, reduceCtorEq, and_false, false_or] at h ⊢
    exact keys_params id m h
  | .method i _ p _ b, h => by
    simp only [keys, List.mem_append, List.mem_cons, Key.mk.injEq, reduceCtorEq, and_false, false_or, and_true] at h ⊢
    rcases h with h | h | h
    · exact .inl (.inr (keys_params id p h))
    · exact .inl (.inl h)
    · exact .inr (keys_params id b h)

/-- `around` is not part of the function whose other part is in the tree. -/
def Apart (around : List Frame) (ks : List Key) : Prop :=
  ∀ id, (headOf around = some ⟨id, .body⟩ → ⟨id, .params⟩ ∉ ks) ∧ (headOf around = some ⟨id, .params⟩ → ⟨id, .body⟩ ∉ ks)

theorem Apart.mono {around : List Frame} {ks ks' : List Key} (h : Apart around ks) (hs : ∀ k ∈ ks', k ∈ ks) : Apart around ks' :=
  fun id => ⟨fun h1 h2 => (h id).1 h1 (hs _ h2), fun h1 h2 => (h id).2 h1 (hs _ h2)⟩

theorem ordered_first {around : List Frame} {ks : List Key} (ev : Event) {l : List (Event × List Frame)} (ha : Apart around ks)
    (hl : HeadsIn ((headOf around).toList ++ ks) l) (hp : l.Pairwise Ordered) : ((ev, around) :: l).Pairwise Ordered := by
  refine List.pairwise_cons.mpr ⟨?_, hp⟩
  intro e' he' id h1 h2
  have := hl e' he' _ h2 (by simp)
  rcases List.mem_append.mp this with h | h
  · rw [show headOf around = some ⟨id, .body⟩ from h1] at h
    simp at h
  · exact (ha id).1 h1 h

theorem nodup_append {ks ks' : List Key} (h : (ks ++ ks').Nodup) : ks.Nodup ∧ ks'.Nodup ∧ ∀ k ∈ ks, k ∉ ks' := by
  rw [List.nodup_append] at h
  exact ⟨h.1, h.2.1, fun k h1 h2 => h.2.2 k h1 k h2 rfl⟩

/-- One part of a construct. -/
theorem part_apart {fr : Frame} {around : List Frame} {id : Nat} {part : Part} {ks : List Key} (hf : fr.key = some ⟨id, part⟩)
    (h : ∀ id', id' = id → (part = .body → ⟨id', .params⟩ ∉ ks) ∧ (part = .params → ⟨id', .body⟩ ∉ ks)) : Apart (fr :: around) ks := by
  intro id'
  simp only [headOf, List.head?_cons, Option.bind_some, hf, Option.some.injEq, Key.mk.injEq]
  exact ⟨fun ⟨h1, h2⟩ => (h id' h1.symm).1 h2, fun ⟨h1, h2⟩ => (h id' h1.symm).2 h2⟩

theorem sites_ordered (u : CharClass) (i : Bool) : ∀ (c : Code) (around : List Frame), (keys c).Nodup → Apart around (keys c) →
    (sites u i around c).Pairwise Ordered
  | .empty, _, _, _ => .nil
  | .seq a b, around, hn, ha => by
    obtain ⟨n1, n2, n3⟩ := nodup_append hn
    refine List.pairwise_append.mpr ⟨sites_ordered u i a around n1 (ha.mono fun k h => by simp [keys, h]),
      sites_ordered u i b around n2 (ha.mono fun k h => by simp [keys, h]), ?_⟩
    refine ordered_cross (sites_heads u i a around) (sites_heads u i b around) ?_
    intro id h1 h2
    rcases List.mem_append.mp h1 with h1 | h1 <;> rcases List.mem_append.mp h2 with h2 | h2
    · simp only [Option.mem_toList] at h1 h2
      rw [h1] at h2; simp at h2
    · simp only [Option.mem_toList] at h1
      exact (ha id).1 h1 (by simp [keys, h2])
    · simp only [Option.mem_toList] at h2
      exact (ha id).2 h2 (by simp [keys, h1])
    · exact n3 _ (keys_params id a h1) h2
  | .leaf l, _, _, _ => List.pairwise_singleton _ _
  | .closure id params hasUses uses body, around, hn, ha => by
    have hh := sites_heads u i (.closure id params hasUses uses body) around
    simp only [sites] at hh ⊢
    simp only [keys] at hn
    obtain ⟨n1, n2, n3⟩ := nodup_append hn
    obtain ⟨m1, m2, m3⟩ := nodup_append n2
    refine ordered_first _ ha (fun e he => hh e (List.mem_cons_of_mem _ he)) ?_
    have hp1 := sites_ordered u i params (⟨some ⟨id, .params⟩, .function, []⟩ :: around) (List.nodup_cons.mp n1).2
      (part_apart rfl (by rintro _ rfl; exact ⟨by simp, fun _ h => n3 _ (List.mem_cons_of_mem _ h) (by simp)⟩))
    have hp2 := sites_ordered u i uses (⟨some ⟨id, .uses⟩, .other, []⟩ :: around) (List.nodup_cons.mp m1).2
      (part_apart rfl (by simp))
    have hp3 := sites_ordered u i body (⟨some ⟨id, .body⟩, .other, []⟩ :: around) (List.nodup_cons.mp m2).2
      (part_apart rfl (by rintro _ rfl; exact ⟨fun _ h => n3 _ (List.mem_cons_self ..) (by simp [h]), by simp⟩))
    have hh1 := sites_heads u i params (⟨some ⟨id, .params⟩, .function, []⟩ :: around)
    have hh2 := sites_heads u i uses (⟨some ⟨id, .uses⟩, .other, []⟩ :: around)
    have hh3 := sites_heads u i body (⟨some ⟨id, .body⟩, .other, []⟩ :: around)
    simp only [headOf, List.head?_cons, Option.bind_some, Option.toList_some, List.cons_append, List.nil_append] at hh1 hh2 hh3
    refine List.pairwise_append.mpr ⟨hp1, List.pairwise_append.mpr ⟨?_, ?_, ?_⟩, ?_⟩
    · split
      · exact hp2
      · exact .nil
    · split
      · exact .nil
      · exact hp3
    · split
      · split
        · intro e _ e' he'; cases he'
        · refine ordered_cross hh2 hh3 ?_
          intro id' h1 h2
          simp only [List.mem_cons, Key.mk.injEq, reduceCtorEq, and_false, false_or] at h1 h2
          exact m3 _ (List.mem_cons_of_mem _ (keys_params id' _ h1)) (by simp [h2])
      · intro e he; cases he
    · refine ordered_cross (ks' := (⟨id, .uses⟩ :: keys uses) ++ (⟨id, .body⟩ :: keys body)) hh1 (HeadsIn.append ?_ ?_) ?_
      · split
        · exact hh2.mono (fun k hk => List.mem_append_left _ hk)
        · exact .nil
      · split
        · exact .nil
        · exact hh3.mono (fun k hk => List.mem_append_right _ hk)
      · intro id' h1 h2
        simp only [List.mem_cons, Key.mk.injEq, reduceCtorEq, and_false, false_or] at h1
        exact n3 _ (List.mem_cons_of_mem _ (keys_params id' _ h1)) h2
  | .function id name params body, around, hn, ha => by
    have hh := sites_heads u i (.function id name params body) around
    simp only [sites] at hh ⊢
    simp only [keys] at hn
    obtain ⟨n1, n2, n3⟩ := nodup_append hn
    refine ordered_first _ ha (fun e he => hh e (List.mem_cons_of_mem _ he)) ?_
    have hp1 := sites_ordered u i params (⟨some ⟨id, .params⟩, .function, name⟩ :: around) (List.nodup_cons.mp n1).2
      (part_apart rfl (by rintro _ rfl; exact ⟨by simp, fun _ h => n3 _ (List.mem_cons_of_mem _ h) (by simp)⟩))
    have hp3 := sites_ordered u i body (⟨some ⟨id, .body⟩, .other, name⟩ :: around) (List.nodup_cons.mp n2).2
      (part_apart rfl (by rintro _ rfl; exact ⟨fun _ h => n3 _ (List.mem_cons_self ..) (by simp [h]), by simp⟩))
    have hh1 := sites_heads u i params (⟨some ⟨id, .params⟩, .function, name⟩ :: around)
    have hh3 := sites_heads u i body (⟨some ⟨id, .body⟩, .other, name⟩ :: around)
    simp only [headOf, List.head?_cons, Option.bind_some, Option.toList_some, List.cons_append, List.nil_append] at hh1 hh3
    refine List.pairwise_append.mpr ⟨hp1, ?_, ?_⟩
    · split
      · exact .nil
      · exact hp3
    · split
      · intro e _ e' he'; cases he'
      · refine ordered_cross hh1 hh3 ?_
        intro id' h1 h2
        simp only [List.mem_cons, Key.mk.injEq, reduceCtorEq, and_false, false_or] at h1
        exact n3 _ (List.mem_cons_of_mem _ (keys_params id' _ h1)) h2
  | .type id k name members, around, hn, ha => by
    have hh := sites_heads u i (.type id k name members) around
    simp only [sites] at hh ⊢
    simp only [keys] at hn
    refine ordered_first _ ha (fun e he => hh e (List.mem_cons_of_mem _ he)) ?_
    exact sites_ordered u i members _ (List.nodup_cons.mp hn).2 (part_apart rfl (by simp))
  | .method id name params hasBody body, around, hn, ha => by
    have hh := sites_heads u i (.method id name params hasBody body) around
    simp only [sites] at hh ⊢
    simp only [keys] at hn
    obtain ⟨n1, n2, n3⟩ := nodup_append hn
    refine ordered_first _ ha (fun e he => hh e (List.mem_cons_of_mem _ he)) ?_
    have hp1 := sites_ordered u i params (⟨some ⟨id, .params⟩, .function, name⟩ :: around) (List.nodup_cons.mp n1).2
      (part_apart rfl (by rintro _ rfl; exact ⟨by simp, fun _ h => n3 _ (List.mem_cons_of_mem _ h) (by simp)⟩))
    have hp3 := sites_ordered u i body (⟨some ⟨id, .body⟩, .other, name⟩ :: around) (List.nodup_cons.mp n2).2
      (part_apart rfl (by rintro _ rfl; exact ⟨fun _ h => n3 _ (List.mem_cons_self ..) (by simp [h]), by simp⟩))
    have hh1 := sites_heads u i params (⟨some ⟨id, .params⟩, .function, name⟩ :: around)
    have hh3 := sites_heads u i body (⟨some ⟨id, .body⟩, .other, name⟩ :: around)
    simp only [headOf, List.head?_cons, Option.bind_some, Option.toList_some, List.cons_append, List.nil_append] at hh1 hh3
    refine List.pairwise_append.mpr ⟨hp1, ?_, ?_⟩
    · split
      · exact .nil
      · exact hp3
    · split
      · intro e _ e' he'; cases he'
      · refine ordered_cross hh1 hh3 ?_
        intro id' h1 h2
        simp only [List.mem_cons, Key.mk.injEq, reduceCtorEq, and_false, false_or] at h1
        exact n3 _ (List.mem_cons_of_mem _ (keys_params id' _ h1)) h2

/-- The innermost construct of a namespace is no function. -/
theorem headOf_inNamespace (u : CharClass) (ns : NsName) : ∀ k, headOf (inNamespace u ns) = some k → k.part = .whole := by
  intro k hk
  unfold headOf at hk
  cases h : (inNamespace u ns).head? with
  | none => rw [h] at hk; cases hk
  | some fr =>
    rw [h] at hk
    have hm := List.mem_of_mem_head? (by rw [h]; rfl : fr ∈ (inNamespace u ns).head?)
    simp only [inNamespace, List.mem_append, List.mem_reverse, List.mem_map, List.mem_singleton] at hm
    rcases hm with ⟨x, _, rfl⟩ | rfl
    · simp only [Option.bind_some, Option.some.injEq] at hk
      rw [← hk]
    · simp [fileFrame] at hk

theorem ns_apart (u : CharClass) (ns : NsName) (ks : List Key) : Apart (inNamespace u ns) ks := by
  intro id
  exact ⟨fun h => absurd (headOf_inNamespace u ns _ h) (by simp), fun h => absurd (headOf_inNamespace u ns _ h) (by simp)⟩

theorem ns_sites_heads (u : CharClass) (i : Bool) (ns : NsName) (c : Code) : HeadsIn (keys c) (sites u i (inNamespace u ns) c) := by
  intro e he k hk hp
  have := sites_heads u i c (inNamespace u ns) e he k hk hp
  rcases List.mem_append.mp this with h | h
  · simp only [Option.mem_toList] at h
    exact absurd (headOf_inNamespace u ns k h) hp
  · exact h

theorem nsSites_heads (u : CharClass) : ∀ (ns : NsName) (around : List Frame), (∀ k, headOf around = some k → k.part = .whole) →
    ∀ e ∈ nsSites u around ns, ∀ k, headOf e.2 = some k → k.part = .whole
  | [], _, _, _, h => by cases h
  | (id, n) :: ns, around, ha, e, h => by
    rcases List.mem_cons.mp h with h | h
    · rw [h]; exact ha
    · refine nsSites_heads u ns _ ?_ e h
      intro k hk
      simp only [headOf, List.head?_cons, Option.bind_some, Option.some.injEq] at hk
      rw [← hk]

theorem nsSites_none (u : CharClass) (ns : NsName) : HeadsIn [] (nsSites u [fileFrame] ns) := by
  intro e he k hk hp
  exact absurd (nsSites_heads u ns [fileFrame] (by simp [headOf, fileFrame]) e he k hk) hp

theorem fileSites_heads (u : CharClass) (i : Bool) : ∀ (f : List Outer) (ns : NsName), HeadsIn (fileKeys f) (fileSites u i ns f)
  | [], _ => .nil
  | .code c :: f, ns => HeadsIn.append ((ns_sites_heads u i ns c).mono fun k h => by simp [fileKeys, h])
      ((fileSites_heads u i f ns).mono fun k h => by simp [fileKeys, h])
  | .nsDecl n :: f, ns => HeadsIn.append ((nsSites_none u n).mono fun k h => by cases h)
      ((fileSites_heads u i f n).mono fun k h => by simp only [fileKeys, List.mem_append]; exact .inr h)
  | .nsBlock n b :: f, ns => HeadsIn.append (HeadsIn.append ((nsSites_none u n).mono fun k h => by cases h)
      ((ns_sites_heads u i n b).mono fun k h => by simp only [fileKeys, List.mem_append]; exact .inr (.inl h)))
      ((fileSites_heads u i f []).mono fun k h => by simp only [fileKeys, List.mem_append]; exact .inr (.inr h))

theorem none_ordered {l : List (Event × List Frame)} (h : HeadsIn [] l) : l.Pairwise Ordered := by
  refine List.Pairwise.imp_of_mem ?_ (List.pairwise_of_forall (R := fun _ _ => True) (by simp))
  intro a b ha _ _ id h1
  exact absurd (h a ha _ h1 (by simp)) (by simp)

/-- In a file, everything in the parameter list of a function stands before everything in its body. -/
theorem fileSites_ordered (u : CharClass) (i : Bool) : ∀ (f : List Outer) (ns : NsName), (fileKeys f).Nodup → (fileSites u i ns f).Pairwise Ordered
  | [], _, _ => .nil
  | .code c :: f, ns, hn => by
    obtain ⟨n1, n2, n3⟩ := nodup_append hn
    refine List.pairwise_append.mpr ⟨sites_ordered u i c _ n1 (ns_apart u ns _), fileSites_ordered u i f ns n2, ?_⟩
    refine ordered_cross (ns_sites_heads u i ns c) (fileSites_heads u i f ns) ?_
    exact fun id h1 h2 => n3 _ (keys_params id c h1) h2
  | .nsDecl n :: f, ns, hn => by
    obtain ⟨_, n2, _⟩ := nodup_append hn
    refine List.pairwise_append.mpr ⟨none_ordered (nsSites_none u n), fileSites_ordered u i f n n2, ?_⟩
    exact ordered_cross (nsSites_none u n) (fileSites_heads u i f n) (by simp)
  | .nsBlock n b :: f, ns, hn => by
    obtain ⟨_, n2, _⟩ := nodup_append hn
    obtain ⟨m1, m2, m3⟩ := nodup_append n2
    refine List.pairwise_append.mpr ⟨List.pairwise_append.mpr ⟨none_ordered (nsSites_none u n), sites_ordered u i b _ m1 (ns_apart u n _), ?_⟩,
      fileSites_ordered u i f [] m2, ?_⟩
    · exact ordered_cross (nsSites_none u n) (ns_sites_heads u i n b) (by simp)
    · refine ordered_cross (ks := keys b) (HeadsIn.append ((nsSites_none u n).mono fun k h => by cases h) (ns_sites_heads u i n b)) (fileSites_heads u i f []) ?_
      exact fun id h1 h2 => m3 _ (keys_params id b h1) h2

/-! ### What a step declares -/

/-- What is declared for an assignment, a target, `catch`, `static` or a parameter stands there and is no alias. -/
def Plain (v : Var) (l : Leaf) : Prop :=
  ∀ x p, l = .assign x p ∨ l = .target x p ∨ l = .fresh x p ∨ l = .param x p → v.pos = p ∧ v.alias = none ∧ v.isVar = true

theorem step_plain {w : World} {cs : List Ctx} {vars : List Var} {l : Leaf} {c : Nat} {v : Var} (h : step w cs vars (.leaf l, c) = vars ++ [v]) :
    Plain v l := by
  have nope : ∀ {P : Prop}, vars = vars ++ [v] → P := fun h => by have := congrArg List.length h; simp at this
  intro x p hl
  have one : ∀ c', vars ++ [⟨x, p, c', true, none⟩] = vars ++ [v] → v.pos = p ∧ v.alias = none ∧ v.isVar = true := by
    intro c' h
    have := List.append_cancel_left h
    simp only [List.cons.injEq, and_true] at this
    rw [← this]; exact ⟨rfl, rfl, rfl⟩
  rcases hl with rfl | rfl | rfl | rfl
  · simp only [step, declareVariable] at h
    split at h
    · exact nope h
    · split at h
      · exact nope h
      · exact one _ h
  · simp only [step, declareFound, declareVariable] at h
    split at h
    · exact nope h
    · split at h
      · exact nope h
      · split at h
        · exact nope h
        · exact one _ h
  · exact one _ h
  · exact one _ h

/-- Every declaration comes from a statement that introduces it, and stands there. -/
theorem declared_by (w : World) (cs : List Ctx) (log : List (Event × Nat)) :
    ∀ v ∈ declared w cs log, ∃ l c, (.leaf l, c) ∈ log ∧ Introduces v.name l ∧ Plain v l ∧ (v.ctx = home cs c ∨ v.ctx = c) := by
  induction log using log_induction with
  | nil => intro v hv; cases hv
  | snoc log e ih =>
    intro v hv
    rw [declared_snoc] at hv
    have old : v ∈ declared w cs log → ∃ l c, (.leaf l, c) ∈ log ++ [e] ∧ Introduces v.name l ∧ Plain v l ∧ (v.ctx = home cs c ∨ v.ctx = c) := by
      intro hv
      obtain ⟨l, c, h1, h2⟩ := ih v hv
      exact ⟨l, c, List.mem_append_left _ h1, h2⟩
    rcases step_grows w cs (declared w cs log) e with h | ⟨v', l, h, he, hi, hc⟩
    · rw [h] at hv; exact old hv
    · obtain ⟨e1, c⟩ := e
      simp only at he
      subst he
      have hp := step_plain h
      rw [h] at hv
      rcases List.mem_append.mp hv with hv | hv
      · exact old hv
      · rw [List.mem_singleton.mp hv]
        exact ⟨l, c, by simp, hi, hp, hc⟩

/-! ### A variable with a single declaration -/

/-- Something in the text of the function introduces the variable: its parameters, its lexical variables, its body. -/
def IntroducedIn (u : CharClass) (i : Bool) (f : List Outer) (id : Nat) (x : QString) (part : Part) (l : Leaf) : Prop :=
  ∃ fs, (.leaf l, fs) ∈ fileSites u i [] f ∧ In id part fs ∧ Introduces x l

/-- **C63.** If a variable is introduced at a single place of a function – it is one of its parameters, or one assignment, `catch` or `static`
in its body introduces it – then wherever it is read behind in the body of this function, it denotes the declaration at this very place. -/
theorem single_declaration (u : CharClass) (i : Bool) (f : List Outer) (hk : (fileKeys f).Nodup) (ht : (fileTokens f).Nodup)
    (hplain : BodiesPlain u i f) :
    ∃ s1 s2, build u i f = some (s1, s2) ∧
      ∀ (w : World) (x : QString) (p q c : Nat) (fs : List Frame) (id : Nat) (l : Leaf) (part : Part), (.leaf (.read x q), c) ∈ s2.log →
        Within s2.ctxs c fs → In id .body fs → x ≠ q! "this" → p ≤ q →
        (part = .body ∧ (l = .assign x p ∨ l = .fresh x p) ∨ part = .params ∧ l = .param x p) → IntroducedIn u i f id x part l →
        (∀ part' l', IntroducedIn u i f id x part' l' → l' = l) →
        ∃ (j : Nat) (v : Var), resolve w s2.ctxs (declared w s2.ctxs s2.log) c x q = some (.own j) ∧
          (declared w s2.ctxs s2.log)[j]? = some v ∧ v.name = x ∧ v.pos = p := by
  obtain ⟨s1, s2, hb, hall⟩ := assigned_in_function u i f hk ht hplain
  obtain ⟨s1', s2', hb', _, _, h0, hlen, hmade, ha, hc, hl⟩ := build_good u i f hk ht
  rw [hb] at hb'; cases hb'
  have hof : OfFile u i f s2.ctxs := by rw [hc]; exact ⟨h0, hlen, hmade, hk⟩
  refine ⟨s1, s2, hb, ?_⟩
  intro w x p q c fs id l part hmem hw hin hx hpq hcase hintro hone
  obtain ⟨fs', hs', hin', hi'⟩ := hintro
  obtain ⟨t, j, v, fsv, partv, hr, hv, hname, htv, hwv, hinv⟩ := hall w x p q c fs fs' id hmem hw hin hx hpq (by
    rcases hcase with ⟨rfl, rfl | rfl⟩ | ⟨rfl, rfl⟩
    · exact .inl ⟨hs', hin'⟩
    · exact .inr (.inl ⟨hs', hin'⟩)
    · exact .inr (.inr ⟨hs', hin'⟩))
  obtain ⟨lv, cv, hm, hiv, hpv, hcv⟩ := declared_by w s2.ctxs s2.log v (List.mem_of_getElem? hv)
  have hcv' : v.ctx = cv := by
    refine home_eq hcv ?_
    intro h0'
    rw [h0'] at hwv
    rw [in_iff] at hinv
    have hf : s2.ctxs[0]? = some ⟨none, .global, [], none, []⟩ := hof.first
    cases hwv with
    | file hx' _ => rw [hf] at hx'; cases hx'; simp [headOf] at hinv
    | inner hx' hp' _ _ => rw [hf] at hx'; cases hx'; cases hp'
  rw [hl] at hm
  obtain ⟨fsl, hml, hwl⟩ := agrees_mem' ha hm
  rw [← hc] at hwl
  rw [hcv'] at hwv
  have hfs := Within.unique hwl hwv
  have hlv : lv = l := hone partv lv ⟨fsl, hml, by rw [hfs]; exact hinv, hname ▸ hiv⟩
  subst hlv
  obtain ⟨h1, h2, _⟩ := hpv x p (by rcases hcase with ⟨_, h | h⟩ | ⟨_, h⟩ <;> simp [h])
  exact ⟨j, v, by rw [hr, htv, h2]; rfl, hv, hname, h1⟩

/-! ### Parameters -/

theorem find_up {w : World} {cs : List Ctx} {vars : List Var} {x : QString} {lim : Option Nat} {c : Nat} (h : find w cs vars false c x lim ≠ []) :
    find w cs vars true c x lim ≠ [] := by
  unfold find at h ⊢
  rw [findIn] at h ⊢
  cases hc : cs[c]? with
  | none => rw [hc] at h; exact absurd rfl h
  | some k =>
    rw [hc] at h
    simp only at h ⊢
    split
    · assumption
    · split
      · assumption
      · rename_i h1 h2
        rw [if_neg h1, if_neg h2] at h
        simp at h

/-- In terms of contexts: a parameter that the body does not declare anew is what the variable denotes. -/
theorem parameter_ctx {w : World} {cs : List Ctx} {a r : List (Event × Nat)} {b p : Nat} {us : List Nat} (hf : Func cs b p us)
    {x : QString} (hx : x ≠ q! "this") {q pos : Nat} (hq : q ≤ pos) (hbp : b ≠ p) (hup : p ∉ us)
    (ha : ∀ l, (.leaf l, b) ∈ a → ¬ Introduces x l)
    (hr : ∀ l, (.leaf l, b) ∈ r → Introduces x l → ∃ p', q < p' ∧ (l = .assign x p' ∨ l = .target x p'))
    (hu : ∀ l, ∀ v ∈ us, (.leaf l, v) ∈ a ++ (.leaf (.param x q), p) :: r → ¬ Introduces x l)
    (hp : ∀ l, (.leaf l, p) ∈ a ++ (.leaf (.param x q), p) :: r → Introduces x l → l = .param x q) :
    ∃ (j : Nat) (v : Var), resolve w cs (declared w cs (a ++ (.leaf (.param x q), p) :: r)) b x pos = some (.own j) ∧
      (declared w cs (a ++ (.leaf (.param x q), p) :: r))[j]? = some v ∧ v.name = x ∧ v.ctx = p ∧ v.pos = q := by
  obtain ⟨hb0, hp0, hu0⟩ := hf.file
  -- the parameter is declared
  have hs : ∀ vars, step w cs vars (.leaf (.param x q), p) = vars ++ [⟨x, q, p, true, none⟩] := fun _ => rfl
  -- no declaration of the variable is ever made in the body
  have main : ∀ r', (∀ l, (.leaf l, b) ∈ r' → Introduces x l → ∃ p', q < p' ∧ (l = .assign x p' ∨ l = .target x p')) →
      ∀ v ∈ declared w cs (a ++ (.leaf (.param x q), p) :: r'), v.name = x → v.ctx ≠ b := by
    intro r'
    induction r' using log_induction with
    | nil =>
      intro _ v hv hn hc
      rw [declared_snoc] at hv
      rw [hs] at hv
      rcases List.mem_append.mp hv with hv | hv
      · obtain ⟨l, c, h1, h2, h3⟩ := declared_from w cs a v hv
        have := home_eq h3 (by rw [hc]; exact hb0)
        rw [← this, hc] at h1
        exact ha l h1 (hn ▸ h2)
      · rw [List.mem_singleton.mp hv] at hc
        exact hbp hc.symm
    | snoc r' e ih =>
      intro hr' v hv hn hc
      have ih := ih (fun l hm => hr' l (List.mem_append_left _ hm))
      have hd : declared w cs (a ++ (.leaf (.param x q), p) :: (r' ++ [e])) =
          step w cs (declared w cs (a ++ (.leaf (.param x q), p) :: r')) e := by
        rw [← declared_snoc]; simp
      rw [hd] at hv
      rcases step_grows w cs (declared w cs (a ++ (.leaf (.param x q), p) :: r')) e with h | ⟨v', l, h, he, hi, hc'⟩
      · rw [h] at hv; exact ih v hv hn hc
      · have hv0 := hv
        rw [h] at hv
        rcases List.mem_append.mp hv with hv | hv
        · exact ih v hv hn hc
        · rw [List.mem_singleton.mp hv] at hn hc
          obtain ⟨e1, c⟩ := e
          simp only at he hc'
          subst he
          have hcb : c = b := by rw [← home_eq hc' (by rw [hc]; exact hb0), hc]
          subst hcb
          rw [hn] at hi
          obtain ⟨p', hp', hl⟩ := hr' l (by simp) hi
          -- the parameter is found there
          obtain ⟨r2, hr2⟩ := foldl_prefix w cs r' (declared w cs a ++ [⟨x, q, p, true, none⟩])
          have hdecl : declared w cs (a ++ (.leaf (.param x q), p) :: r') = declared w cs a ++ ⟨x, q, p, true, none⟩ :: r2 := by
            show (a ++ (.leaf (.param x q), p) :: r').foldl (step w cs) [] = _
            rw [List.foldl_append, List.foldl_cons]
            refine hr2.trans ?_
            simp
          have hfind : ∀ lim, (∀ p'', lim = some p'' → q < p'') →
              Target.own (declared w cs a).length ∈ find w cs (declared w cs (a ++ (.leaf (.param x q), p) :: r')) false c x lim := by
            intro lim hlim
            rw [find_body hf]
            rw [if_neg]
            · refine List.mem_flatMap.mpr ⟨p, by simp, ?_⟩
              rw [mem_locals]
              refine ⟨(declared w cs a).length, ⟨x, q, p, true, none⟩, by rw [hdecl]; simp, rfl, rfl, ?_, rfl⟩
              cases lim with
              | none => rfl
              | some p'' => simpa [before] using hlim p'' rfl
            · simp only [ne_eq, Classical.not_not]
              cases hl' : locals (declared w cs (a ++ (.leaf (.param x q), p) :: r')) c x lim with
              | nil => rfl
              | cons t ts =>
                obtain ⟨i, v2, h1, h2, h3, _⟩ := mem_locals.mp (show t ∈ locals _ c x lim by rw [hl']; simp)
                exact absurd h2 (ih v2 (List.mem_of_getElem? h1) h3)
          have hlen : ∀ {P : Prop}, declared w cs (a ++ (.leaf (.param x q), p) :: r') =
              declared w cs (a ++ (.leaf (.param x q), p) :: r') ++ [v'] → P := by
            intro P h; have := congrArg List.length h; simp at this
          rcases hl with rfl | rfl
          · simp only [step, declareVariable, if_neg (fun h : x = _ ∧ _ => hx h.1)] at h
            rw [if_pos] at h
            · exact hlen h
            · refine List.any_eq_true.mpr ⟨_, hfind (some p') (by simpa using hp'), ?_⟩
              simp [isVariable, hdecl]
          · simp only [step, declareFound] at h
            rw [if_pos] at h
            · exact hlen h
            · exact find_up (List.ne_nil_of_mem (hfind none (by simp)))
  have hnone := main r hr
  obtain ⟨r2, hr2⟩ := foldl_prefix w cs r (declared w cs a ++ [⟨x, q, p, true, none⟩])
  have hdecl : declared w cs (a ++ (.leaf (.param x q), p) :: r) = declared w cs a ++ ⟨x, q, p, true, none⟩ :: r2 := by
    show (a ++ (.leaf (.param x q), p) :: r).foldl (step w cs) [] = _
    rw [List.foldl_append, List.foldl_cons]
    refine hr2.trans ?_
    simp
  obtain ⟨k, hk, hkk, hki⟩ := hf.body
  have hlast : ∃ t, lastVar (declared w cs (a ++ (.leaf (.param x q), p) :: r))
      (find w cs (declared w cs (a ++ (.leaf (.param x q), p) :: r)) false b x (some (pos + 1))) = some t ∧
      ∃ (i : Nat) (v : Var), (declared w cs (a ++ (.leaf (.param x q), p) :: r))[i]? = some v ∧ v.name = x ∧ v.ctx = p ∧ v.pos = q ∧ t = .own i := by
    have hempty : locals (declared w cs (a ++ (.leaf (.param x q), p) :: r)) b x (some (pos + 1)) = [] := by
      cases hl' : locals (declared w cs (a ++ (.leaf (.param x q), p) :: r)) b x (some (pos + 1)) with
      | nil => rfl
      | cons t ts =>
        obtain ⟨i, v2, h1, h2, h3, _⟩ := mem_locals.mp (show t ∈ locals _ b x _ by rw [hl']; simp)
        exact absurd h2 (hnone v2 (List.mem_of_getElem? h1) h3)
    rw [find_body hf, hempty]
    simp only [ne_eq, not_true, if_false]
    obtain ⟨t, ht⟩ := lastVar_some (vars := declared w cs (a ++ (.leaf (.param x q), p) :: r))
      (l := (p :: us).reverse.flatMap fun i => locals (declared w cs (a ++ (.leaf (.param x q), p) :: r)) i x (some (pos + 1)))
      (t := .own (declared w cs a).length)
      (List.mem_flatMap.mpr ⟨p, by simp, mem_locals.mpr ⟨(declared w cs a).length, ⟨x, q, p, true, none⟩, by rw [hdecl]; simp, rfl, rfl,
        by simp only [before, decide_eq_true_eq]; omega, rfl⟩⟩) (by simp [isVariable, hdecl])
    refine ⟨t, ht, ?_⟩
    obtain ⟨j, hj, hm⟩ := List.mem_flatMap.mp (lastVar_mem ht).1
    obtain ⟨i, v, h1, h2, h3, _, h4⟩ := mem_locals.mp hm
    obtain ⟨l, c, g1, g2, g3, g4⟩ := declared_by w cs _ v (List.mem_of_getElem? h1)
    rw [List.mem_reverse, List.mem_cons] at hj
    have hj0 : v.ctx ≠ 0 := by
      rw [h2]
      rcases hj with rfl | hj
      · exact hp0
      · intro h0; rw [h0] at hj; exact hu0 hj
    have hcj : c = j := by rw [← home_eq g4 hj0, h2]
    subst hcj
    rw [h3] at g2
    rcases hj with rfl | hj
    · have hl := hp l g1 g2
      subst hl
      obtain ⟨e1, e2, _⟩ := g3 x q (by simp)
      exact ⟨i, v, h1, h3, h2, e1, by rw [h4, e2]; rfl⟩
    · exact absurd g2 (hu l _ hj g1)
  obtain ⟨t, ht, i, v, h1, h2, h3, h4, h5⟩ := hlast
  refine ⟨i, v, ?_, h1, h2, h3, h4⟩
  simp [resolve, hk, hx, ht, h5]

theorem agrees_split {cs : List Ctx} : ∀ {lg : List (Event × Nat)} {a : List (Event × List Frame)} {e : Event} {fs : List Frame} {r : List (Event × List Frame)},
    Agrees cs lg (a ++ (e, fs) :: r) → ∃ la c lr, lg = la ++ (e, c) :: lr ∧ Agrees cs la a ∧ Within cs c fs ∧ Agrees cs lr r
  | [], [], _, _, _, h => h.elim
  | [], _ :: _, _, _, _, h => h.elim
  | (e', c) :: lg, [], _, _, _, h => by
    obtain ⟨rfl, h2, h3⟩ := h
    exact ⟨[], c, lg, rfl, trivial, h2, h3⟩
  | (e', c) :: lg, (e'', fs') :: a, _, _, _, h => by
    obtain ⟨rfl, h2, h3⟩ := h
    obtain ⟨la, c', lr, rfl, g1, g2, g3⟩ := agrees_split h3
    exact ⟨(e', c) :: la, c', lr, rfl, ⟨rfl, h2, g1⟩, g2, g3⟩

/-- **C63.** A parameter that is not declared anew in the body – by `catch`, `static` or `global`; assignments and `foreach` do not –
nor captured is what the variable denotes everywhere in the body of this function: the declaration in the parameter list. -/
theorem parameter_denoted (u : CharClass) (i : Bool) (f : List Outer) (hk : (fileKeys f).Nodup) (ht : (fileTokens f).Nodup) :
    ∃ s1 s2, build u i f = some (s1, s2) ∧
      ∀ (w : World) (x : QString) (p q c : Nat) (fs : List Frame) (id : Nat), Within s2.ctxs c fs → In id .body fs → x ≠ q! "this" → p ≤ q →
        IntroducedIn u i f id x .params (.param x p) → (∀ l, IntroducedIn u i f id x .params l → l = .param x p) →
        (∀ l, ¬ IntroducedIn u i f id x .uses l) →
        (∀ l, IntroducedIn u i f id x .body l → ∃ p', p < p' ∧ (l = .assign x p' ∨ l = .target x p')) →
        ∃ (j : Nat) (v : Var) (fsv : List Frame), resolve w s2.ctxs (declared w s2.ctxs s2.log) c x q = some (.own j) ∧
          (declared w s2.ctxs s2.log)[j]? = some v ∧ v.name = x ∧ v.pos = p ∧ Within s2.ctxs v.ctx fsv ∧ In id .params fsv := by
  obtain ⟨s1, s2, hb, _, _, h0, hlen, hmade, ha, hc, hl⟩ := build_good u i f hk ht
  refine ⟨s1, s2, hb, ?_⟩
  rw [hc, hl]
  have hof : OfFile u i f s1.ctxs := ⟨h0, hlen, hmade, hk⟩
  intro w x p q c fs id hw hin hx hpq hintro hparams huses hbody
  obtain ⟨pc, us, hf, ⟨xp, hp1, hp2⟩, hus⟩ := func_of hof hw hin
  obtain ⟨fsp, hs, hinp, _⟩ := hintro
  obtain ⟨sa, sr, hsplit⟩ := List.append_of_mem hs
  have hord := fileSites_ordered u i f [] hk
  rw [hsplit] at ha hord
  obtain ⟨la, c', lr, hlog, ha1, hw', ha2⟩ := agrees_split ha
  have hc' : c' = pc := same_ctx hof hw' hinp hp1 hp2
  subst hc'
  obtain ⟨xb, hxb, hxbk⟩ : ∃ xb, s1.ctxs[c]? = some xb ∧ xb.key = some ⟨id, .body⟩ := by
    obtain ⟨fr, rest, rfl, hkey⟩ := hin
    obtain ⟨xc, h1, h2, _⟩ := within_head hw
    exact ⟨xc, h1, h2.trans hkey⟩
  have hmemlog : ∀ l c2, (.leaf l, c2) ∈ s1.log → ∃ fs2, (.leaf l, fs2) ∈ fileSites u i [] f ∧ Within s1.ctxs c2 fs2 := by
    intro l c2 hm
    have ha' : Agrees s1.ctxs s1.log (fileSites u i [] f) := by rw [hsplit]; exact ha
    exact agrees_mem' ha' hm
  rw [hlog] at hmemlog ⊢
  have hbp : c ≠ c' := by
    intro h
    rw [h, hp1] at hxb
    cases hxb
    rw [hp2] at hxbk
    simp at hxbk
  have hup : c' ∉ us := by
    intro h
    obtain ⟨y, hy, hyk⟩ := hus c' h
    rw [hp1] at hy; cases hy
    rw [hp2] at hyk
    simp at hyk
  have key := parameter_ctx (w := w) hf hx hpq hbp hup (a := la) (r := lr) ?_ ?_ ?_ ?_
  · obtain ⟨j, v, r1, r2, r3, r4, r5⟩ := key
    exact ⟨j, v, fsp, r1, r2, r3, r5, r4 ▸ hw', hinp⟩
  · intro l hm _
    obtain ⟨fs2, h1, h2⟩ := agrees_mem' ha1 hm
    have hin2 : In id .body fs2 := in_of_key h2 hxb hxbk
    have := (List.pairwise_append.mp hord).2.2 _ h1 _ (List.mem_cons_self ..) id (in_iff.mp hin2)
    exact this (in_iff.mp hinp)
  · intro l hm hi
    obtain ⟨fs2, h1, h2⟩ := hmemlog l c (by simp [hm])
    exact hbody l ⟨fs2, h1, in_of_key h2 hxb hxbk, hi⟩
  · intro l v hv hm hi
    obtain ⟨y, hy, hyk⟩ := hus v hv
    obtain ⟨fs2, h1, h2⟩ := hmemlog l v hm
    exact huses l ⟨fs2, h1, in_of_key h2 hy hyk, hi⟩
  · intro l hm hi
    obtain ⟨fs2, h1, h2⟩ := hmemlog l c' hm
    exact hparams l ⟨fs2, h1, in_of_key h2 hp1 hp2, hi⟩

/-! ### `$this` -/

/-- The construct directly around the innermost one. -/
def outerKind (fs : List Frame) : Option Kind := fs.tail.head?.map (·.kind)

theorem classAround_eq {cs : List Ctx} {c : Nat} {fs : List Frame} (hw : Within cs c fs) :
    (outerKind fs = some .klass → ∃ (k : Nat) (x : Ctx), classAround cs c = some k ∧ cs[c]? = some x ∧ x.parent = some k ∧ Within cs k fs.tail) ∧
    (outerKind fs ≠ some .klass → classAround cs c = none) := by
  cases hw with
  | file hx hp =>
    refine ⟨by simp [outerKind], fun _ => ?_⟩
    simp [classAround, hx, hp]
  | @inner _ q x fs' hx hp _ hw' =>
    obtain ⟨y, hy, hyk⟩ : ∃ y, cs[q]? = some y ∧ fs'.head?.map (·.kind) = some y.kind := by
      cases hw' with
      | file hy _ => exact ⟨_, hy, rfl⟩
      | inner hy _ _ _ => exact ⟨_, hy, rfl⟩
    constructor
    · intro h
      have : y.kind = .klass := by
        have h : fs'.head?.map (·.kind) = some .klass := h
        rw [hyk] at h; exact Option.some.inj h
      exact ⟨q, x, by simp [classAround, hx, hp, hy, this], hx, hp, hw'⟩
    · intro h
      have : y.kind ≠ .klass := by
        intro h'
        exact h (show fs'.head?.map (·.kind) = some .klass by rw [hyk, h'])
      simp [classAround, hx, hp, hy, this]

/-- **C63.** `$this` directly in a method denotes the class the method stands in.  Anywhere else – also in a closure in a method, where PHP binds
it – it denotes no class: at most a parameter or a superglobal of this name. -/
theorem this_denotes (u : CharClass) (i : Bool) (f : List Outer) (hk : (fileKeys f).Nodup) (ht : (fileTokens f).Nodup) :
    ∃ s1 s2, build u i f = some (s1, s2) ∧
      ∀ (w : World) (q c : Nat) (fs : List Frame), Within s2.ctxs c fs →
        (outerKind fs = some .klass → ∃ k, resolve w s2.ctxs (declared w s2.ctxs s2.log) c (q! "this") q = some (.klass k) ∧ Within s2.ctxs k fs.tail) ∧
        (outerKind fs ≠ some .klass → ∀ id, In id .body fs → (∀ part l, ¬ IntroducedIn u i f id (q! "this") part l) → (∀ g ∈ w (q! "this"), g.superglobal = false) →
          resolve w s2.ctxs (declared w s2.ctxs s2.log) c (q! "this") q = none) := by
  obtain ⟨s1, s2, hb, _, _, h0, hlen, hmade, ha, hc, hl⟩ := build_good u i f hk ht
  refine ⟨s1, s2, hb, ?_⟩
  rw [hc, hl]
  have hof : OfFile u i f s1.ctxs := ⟨h0, hlen, hmade, hk⟩
  intro w q c fs hw
  obtain ⟨hyes, hno⟩ := classAround_eq hw
  constructor
  · intro h
    obtain ⟨k, x, h1, h2, h3, h4⟩ := hyes h
    exact ⟨k, by simp [resolve, h2, h1], h4⟩
  · intro h id hin hintro hsup
    have hca := hno h
    obtain ⟨pc, us, hf, ⟨xp, hp1, hp2⟩, hus⟩ := func_of hof hw hin
    obtain ⟨k, hk', hkk, hki⟩ := hf.body
    have harg : argument s1.ctxs (declared w s1.ctxs s1.log) (q! "this") k.imports = none := by
      cases hg : argument s1.ctxs (declared w s1.ctxs s1.log) (q! "this") k.imports with
      | none => rfl
      | some t =>
        obtain ⟨j, hj, hm⟩ := argument_mem hg
        obtain ⟨n, v, h1, h2, h3, _, _⟩ := mem_locals.mp hm
        obtain ⟨l, c2, g1, g2, g3⟩ := declared_from w s1.ctxs s1.log v (List.mem_of_getElem? h1)
        obtain ⟨_, hp0, hu0⟩ := hf.file
        rw [hki, List.mem_cons] at hj
        have hj0 : v.ctx ≠ 0 := by
          rw [h2]
          rcases hj with rfl | hj
          · exact hp0
          · intro h0; rw [h0] at hj; exact hu0 hj
        have hc2 : c2 = j := by rw [← home_eq g3 hj0, h2]
        subst hc2
        obtain ⟨fs2, hm2, hw2⟩ := agrees_mem' ha g1
        rw [h3] at g2
        rcases hj with rfl | hj
        · exact absurd ⟨fs2, hm2, in_of_key hw2 hp1 hp2, g2⟩ (hintro .params l)
        · obtain ⟨y, hy, hyk⟩ := hus _ hj
          exact absurd ⟨fs2, hm2, in_of_key hw2 hy hyk, g2⟩ (hintro .uses l)
    have hfind : (w (q! "this")).find? (·.superglobal) = none := by
      rw [List.find?_eq_none]
      intro g hg
      simp [hsup g hg]
    simp [resolve, hk', hca, hkk, harg, hfind]

/-! ### Files

    <?php
    function f($a, $x) { $b = $a; $a = 1; foreach ($a as $x) { echo $b, $x; } }
    class C { function m() { echo $this; $g = function() use ($z) { echo $this; }; } }
-/
def exVars : List Outer :=
  [.code (.seq
    (.function 2 (q! "f") (.seq (.leaf (.param (q! "a") 4)) (.leaf (.param (q! "x") 6)))
      (.seq (.leaf (.assign (q! "b") 9)) (.seq (.leaf (.read (q! "a") 11)) (.seq (.leaf (.assign (q! "a") 13)) (.seq (.leaf (.read (q! "a") 19))
        (.seq (.leaf (.target (q! "x") 21)) (.seq (.leaf (.read (q! "b") 25)) (.leaf (.read (q! "x") 27)))))))))
    (.type 33 .klass (q! "C") (.method 36 (q! "m") .empty true
      (.seq (.leaf (.read (q! "this") 41)) (.seq (.leaf (.assign (q! "g") 43))
        (.closure 45 .empty true (.leaf (.lexical (q! "z") 50)) (.leaf (.read (q! "this") 54))))))))]

/-- The declarations of a file and what is denoted by a variable that is read there. -/
def denoted (f : List Outer) (w : World) (x : QString) (q : Nat) : Option (Option Target) :=
  (build asciiClass false f).bind fun r =>
    (r.2.log.find? fun e => e.1 = .leaf (.read x q)).map fun e => resolve w r.2.ctxs (declared w r.2.ctxs r.2.log) e.2 x q

def varsOf (f : List Outer) (w : World) : Option (List (QString × Nat × Nat)) :=
  (build asciiClass false f).map fun r => (declared w r.2.ctxs r.2.log).map fun v => (v.name, v.pos, v.ctx)

def noWorld : World := fun _ => []

example : (fileKeys exVars).Nodup ∧ (fileTokens exVars).Nodup := ⟨by decide +kernel, by decide +kernel⟩
example : BodiesPlain asciiClass false exVars := by
  have h : ∀ e ∈ fileSites asciiClass false [] exVars, (∃ fr rest, e.2 = fr :: rest ∧ fr.key.map (·.part) = some .body) →
      ∀ l, e.1 = .leaf l → InBody l := by
    simp only [exVars, fileSites, sites, inNamespace]
    simp only [List.map_nil, List.reverse_nil, List.nil_append, List.cons_append, List.append_nil, if_true, if_false, Bool.or_false,
      Bool.not_true, List.mem_cons, List.not_mem_nil, or_false, Bool.false_eq_true]
    rintro e (rfl | rfl | rfl | rfl | rfl | rfl | rfl | rfl | rfl | rfl | rfl | rfl | rfl | rfl | rfl | rfl | rfl) ⟨fr, rest, h1, h2⟩ l hl <;>
      first
      | cases hl; constructor
      | (cases hl; done)
      | (cases h1; cases h2; done)
  intro l fs id hm ⟨fr, rest, h1, h2⟩
  exact h _ hm ⟨fr, rest, h1, by rw [h2]; rfl⟩ l rfl
/-- The hypotheses of `parameter_denoted` are met for `$a` in `f`: it is a parameter, and only assigned in the body. -/
example : IntroducedIn asciiClass false exVars 2 (q! "a") .params (.param (q! "a") 4) ∧
    (∀ l, IntroducedIn asciiClass false exVars 2 (q! "a") .params l → l = .param (q! "a") 4) ∧
    (∀ l, ¬ IntroducedIn asciiClass false exVars 2 (q! "a") .uses l) ∧
    (∀ l, IntroducedIn asciiClass false exVars 2 (q! "a") .body l → ∃ p', 4 < p' ∧ (l = .assign (q! "a") p' ∨ l = .target (q! "a") p')) := by
  have key : ∀ l part, IntroducedIn asciiClass false exVars 2 (q! "a") part l →
      (part = .params ∧ l = .param (q! "a") 4) ∨ (part = .body ∧ l = .assign (q! "a") 13) := by
    rintro l part ⟨fs, hm, ⟨fr, rest, h1, h2⟩, h3⟩
    simp only [exVars, fileSites, sites, inNamespace] at hm
    simp only [List.map_nil, List.reverse_nil, List.nil_append, List.cons_append, List.append_nil, if_true, if_false, Bool.or_false,
      Bool.not_true, List.mem_cons, List.not_mem_nil, or_false, Bool.false_eq_true] at hm
    rcases hm with h | h | h | h | h | h | h | h | h | h | h | h | h | h | h | h | h <;> cases h <;>
      first
      | (cases h3; done)
      | (cases h1; cases h2; first | exact .inl ⟨rfl, by cases h3; rfl⟩ | exact .inr ⟨rfl, by cases h3; rfl⟩)
  refine ⟨⟨_, List.mem_cons_of_mem _ (List.mem_cons_self ..), ⟨_, _, rfl, rfl⟩, .param 4⟩, ?_, ?_, ?_⟩
  · intro l h
    rcases key l _ h with ⟨_, h⟩ | ⟨h, _⟩
    · exact h
    · cases h
  · intro l h
    rcases key l _ h with ⟨h, _⟩ | ⟨h, _⟩ <;> cases h
  · intro l h
    rcases key l _ h with ⟨h, _⟩ | ⟨_, h⟩
    · cases h
    · exact ⟨13, by omega, .inl h⟩
/-- `$a` is the parameter although it is assigned, `$b` the assignment, `$x` the parameter although `foreach` assigns it. -/
example : varsOf exVars noWorld = some [(q! "a", 4, 1), (q! "x", 6, 1), (q! "b", 9, 2), (q! "g", 43, 5)] := by decide +kernel
example : denoted exVars noWorld (q! "a") 11 = some (some (.own 0)) ∧ denoted exVars noWorld (q! "a") 19 = some (some (.own 0)) := by decide +kernel
example : denoted exVars noWorld (q! "b") 25 = some (some (.own 2)) ∧ denoted exVars noWorld (q! "x") 27 = some (some (.own 1)) := by decide +kernel
/-- `$this` in the method, and in the closure in it. -/
example : denoted exVars noWorld (q! "this") 41 = some (some (.klass 3)) ∧ denoted exVars noWorld (q! "this") 54 = some none := by decide +kernel

/-! ### What is not found although PHP finds it -/

/-!
    <?php
    $x = 1;
    function f($a) { foreach ($a as $x) { echo $x; } }
-/
def exForeach : List Outer :=
  [.code (.seq (.leaf (.assign (q! "x") 1)) (.function 6 (q! "f") (.leaf (.param (q! "a") 8))
    (.seq (.leaf (.read (q! "a") 12)) (.seq (.leaf (.target (q! "x") 14)) (.leaf (.read (q! "x") 18))))))]

/-- The variable of a `foreach` in a function is not declared if the file has a global variable of the same name – the search for an earlier
declaration leaves the function – and is not found where it is read. -/
theorem foreach_lost : varsOf exForeach noWorld = some [(q! "x", 1, 0), (q! "a", 8, 1)] ∧ denoted exForeach noWorld (q! "x") 18 = some none := by
  decide +kernel

/-- In general: a target in a function whose name the context around the function knows is not declared. -/
theorem target_lost {w : World} {cs : List Ctx} {vars : List Var} {b p : Nat} {us : List Nat} (_ : Func cs b p us) {x : QString} {q : Nat}
    (h : find w cs vars true b x none ≠ []) : step w cs vars (.leaf (.target x q), b) = vars := by
  simp [step, declareFound, h]

/-!
    <?php
    namespace N;
    $x = 1;
    function f() { global $x; echo $x; }
-/
def exGlobal : List Outer :=
  [.nsDecl [(2, q! "N")], .code (.seq (.leaf (.assign (q! "x") 4)) (.function 9 (q! "f") .empty
    (.seq (.leaf (.globalVar (q! "x") 14)) (.leaf (.read (q! "x") 17)))))]

/-- The same file without the namespace. -/
def exGlobal' : List Outer :=
  [.code (.seq (.leaf (.assign (q! "x") 4)) (.function 9 (q! "f") .empty (.seq (.leaf (.globalVar (q! "x") 14)) (.leaf (.read (q! "x") 17)))))]

/-- `global $x` in a namespace declares nothing. -/
theorem global_lost (w : World) (cs : List Ctx) (vars : List Var) (c q : Nat) (x : QString) (h : inNs cs (cs.length + 1) c = true) :
    step w cs vars (.leaf (.globalVar x q), c) = vars := by
  simp [step, declareGlobal, globalTargets, h]

theorem global_in_namespace_lost : denoted exGlobal' noWorld (q! "x") 17 = some (some (.own 0)) ∧ denoted exGlobal noWorld (q! "x") 17 = some none := by
  decide +kernel

/-!
    <?php
    $x = 1;
    function f() { return function() use ($x) { echo $x; }; }
-/
def exUse : List Outer :=
  [.code (.seq (.leaf (.assign (q! "x") 1)) (.function 6 (q! "f") .empty
    (.closure 12 .empty true (.leaf (.lexical (q! "x") 16)) (.leaf (.read (q! "x") 20)))))]

/-- A closure in a function "captures" a global variable the function does not know. -/
theorem capture_leaks : denoted exUse noWorld (q! "x") 20 = some (some (.own 0)) := by decide +kernel

end KPhp.Denote
