/-
The completion code model (duchain/completioncodemodel.cpp) and property C28.

Simplifications: the item repository is an association list from files to item lists; the embedded
free tree (KDevPlatform) is the list of its valid items sorted by identifier — the free slots it
keeps are skipped by the users of `items` (completioncodemodel.h:65-67) and not modelled; reference
counts are natural numbers (`uint` in the code, no overflow).  Files, identifiers and names are
their indices; identifier 0 is the invalid identifier.
-/
namespace KPhp.CodeModel

/-- `CompletionCodeModelItem` (completioncodemodel.h:26-42); `kind` is 0 Unknown or 1 Exception. -/
structure Item where
  id : Nat
  prettyName : Nat
  referenceCount : Nat
  kind : Nat
  deriving DecidableEq, Repr

/-- The repository: for each file its items. -/
abbrev Repo := List (Nat × List Item)

/-- `repo.findIndex` / `itemFromIndex`. -/
def find (repo : Repo) (file : Nat) : Option (List Item) := repo.lookup file

/-- `repo.deleteItem(index)`. -/
def delete (repo : Repo) (file : Nat) : Repo := repo.filter (fun e => e.1 != file)

/-- Replace the list of a file (in-place edit through `dynamicItemFromIndex`, or delete and
`repo.index(request)`). -/
def store (repo : Repo) (file : Nat) (items : List Item) : Repo := (file, items) :: delete repo file

/-- `alg.indexOf`. -/
def indexOf (items : List Item) (id : Nat) : Option Item := items.find? (fun i => i.id == id)

/-- `EmbeddedTreeAddItem`: the tree is sorted by identifier. -/
def treeAdd (x : Item) : List Item → List Item
  | [] => [x]
  | y :: ys => if x.id < y.id then x :: y :: ys else y :: treeAdd x ys

/-- In-place modification of the entry with the identifier. -/
def modify (items : List Item) (id : Nat) (f : Item → Item) : List Item :=
  items.map (fun i => if i.id == id then f i else i)

/-- `EmbeddedTreeRemoveItem`. -/
def treeRemove (items : List Item) (id : Nat) : List Item := items.filter (fun i => i.id != id)

/-- `addItem` (completioncodemodel.cpp:170-232). -/
def addItem (repo : Repo) (file id name kind : Nat) : Repo :=
  if id = 0 then repo
  else
    let newItem : Item := ⟨id, name, 1, kind⟩
    match find repo file with
    | some items =>
      match indexOf items id with
      | some _ =>
        store repo file (modify items id fun i =>
          { i with referenceCount := i.referenceCount + 1, kind := kind, prettyName := name })
      | none => store repo file (treeAdd newItem items)
    | none => store repo file [newItem]

/-- `updateItem` (completioncodemodel.cpp:234-273); `none`: the item is not there, an assertion
fails (undefined behaviour without assertions: index -1 resp. nothing happens). -/
def updateItem (repo : Repo) (file id name kind : Nat) : Option Repo :=
  if id = 0 then some repo
  else
    match find repo file with
    | some items =>
      match indexOf items id with
      | some _ =>
        some (store repo file (modify items id fun i => { i with kind := kind, prettyName := name }))
      | none => none
    | none => none

/-- `removeItem` (completioncodemodel.cpp:275-332). -/
def removeItem (repo : Repo) (file id : Nat) : Repo :=
  if id = 0 then repo
  else
    match find repo file with
    | some items =>
      match indexOf items id with
      | none => repo
      | some x =>
        if x.referenceCount - 1 ≠ 0 then
          store repo file (modify items id fun i => { i with referenceCount := i.referenceCount - 1 })
        else
          let rest := treeRemove items id
          if rest = [] then delete repo file else store repo file rest
    | none => repo

/-- `items` (completioncodemodel.cpp:334-360). -/
def items (repo : Repo) (file : Nat) : List Item := (find repo file).getD []

/-- The calls of the interface. -/
inductive Op where
  | add (file id name kind : Nat)
  | update (file id name kind : Nat)
  | remove (file id : Nat)
  deriving Repr

def step (repo : Repo) : Op → Option Repo
  | .add f i n k => some (addItem repo f i n k)
  | .update f i n k => updateItem repo f i n k
  | .remove f i => some (removeItem repo f i)

/-- A history of calls on an initially empty model. -/
def run (ops : List Op) : Option Repo := ops.foldlM step []

/-! ### Specification -/

/-- The abstract state: how often an identifier of a file is referenced, with its most recent name
and kind. -/
structure Entry where
  count : Nat
  name : Nat
  kind : Nat
  deriving DecidableEq, Repr

/-- The effect of a call on the entry of `(file, id)`: a reference counter. -/
def specStep (file id : Nat) (e : Option Entry) : Op → Option Entry
  | .add f i n k =>
    if f = file ∧ i = id then some ⟨(e.map Entry.count).getD 0 + 1, n, k⟩ else e
  | .update f i n k =>
    if f = file ∧ i = id then e.map (fun x => { x with name := n, kind := k }) else e
  | .remove f i =>
    if f = file ∧ i = id then
      e.bind (fun x => if x.count ≤ 1 then none else some { x with count := x.count - 1 })
    else e

def specRun (file id : Nat) (ops : List Op) : Option Entry := ops.foldl (specStep file id) none

/-! ### Proofs -/

/-- Well-formed: sorted strictly by identifier, valid identifiers, positive counts, not empty, and
one list per file. -/
structure WfItems (l : List Item) : Prop where
  sorted : l.Pairwise (fun a b => a.id < b.id)
  valid : ∀ i ∈ l, i.id ≠ 0 ∧ 1 ≤ i.referenceCount

def Wf (r : Repo) : Prop := ∀ f l, find r f = some l → WfItems l ∧ l ≠ []

theorem find_delete (r : Repo) (f g : Nat) :
    find (delete r f) g = if g = f then none else find r g := by
  unfold find delete
  induction r with
  | nil => simp
  | cons e r ih =>
    rcases e with ⟨h, l⟩
    by_cases hf : h = f
    · subst hf
      simp only [List.filter_cons]
      by_cases hg : g = h
      · subst hg; simpa using ih
      · simp [hg, List.lookup_cons]
        have : (g == h) = false := by simpa using hg
        simp [this] ; simpa [hg] using ih
    · have : (h != f) = true := by simpa using hf
      simp only [List.filter_cons, this, if_true, List.lookup_cons, ih]
      by_cases hg : g = h
      · subst hg; simp [hf]
      · have : (g == h) = false := by simpa using hg
        simp [this]

theorem find_store (r : Repo) (f g : Nat) (l : List Item) :
    find (store r f l) g = if g = f then some l else find r g := by
  by_cases h : g = f
  · subst h; simp [find, store]
  · have h' : (g == f) = false := by simpa using h
    have := find_delete r f g
    simp [find, store, List.lookup_cons, h', h] at this ⊢
    exact this

/-- The entry of `(file, id)` in the repository. -/
def entry (r : Repo) (file id : Nat) : Option Entry :=
  (indexOf (items r file) id).map (fun i => ⟨i.referenceCount, i.prettyName, i.kind⟩)

theorem items_store (r : Repo) (f g : Nat) (l : List Item) :
    items (store r f l) g = if g = f then l else items r g := by
  unfold items; rw [find_store]; split <;> rfl

theorem items_delete (r : Repo) (f g : Nat) :
    items (delete r f) g = if g = f then [] else items r g := by
  unfold items; rw [find_delete]; split <;> rfl

theorem indexOf_modify (l : List Item) (id j : Nat) (f : Item → Item) (hf : ∀ i, (f i).id = i.id) :
    indexOf (modify l id f) j = (indexOf l j).map (fun i => if i.id == id then f i else i) := by
  induction l with
  | nil => rfl
  | cons x l ih =>
    simp only [indexOf, modify, List.map_cons, List.find?_cons] at ih ⊢
    have e : ((if x.id == id then f x else x).id == j) = (x.id == j) := by
      split <;> simp [hf]
    rw [e]
    split
    · rfl
    · exact ih

theorem indexOf_treeAdd (l : List Item) (x : Item) (j : Nat) (hx : indexOf l x.id = none) :
    indexOf (treeAdd x l) j = if x.id = j then some x else indexOf l j := by
  induction l with
  | nil => simp [indexOf, treeAdd, List.find?_cons]; split <;> simp_all
  | cons y l ih =>
    simp only [indexOf, List.find?_cons] at hx
    split at hx
    · cases hx
    · next hy =>
      have ih' := ih hx
      unfold treeAdd
      split
      · simp only [indexOf, List.find?_cons]
        by_cases h : x.id = j
        · simp [h]
        · have : (x.id == j) = false := by simpa using h
          simp [h, this]
      · simp only [indexOf, List.find?_cons] at ih' ⊢
        rw [ih']
        by_cases h : x.id = j
        · subst h; simp only [hy, if_true]
        · simp [h]

theorem indexOf_treeRemove (l : List Item) (id j : Nat) :
    indexOf (treeRemove l id) j = if j = id then none else indexOf l j := by
  induction l with
  | nil => simp [indexOf, treeRemove]
  | cons x l ih =>
    simp only [indexOf, treeRemove, List.filter_cons, List.find?_cons] at ih ⊢
    by_cases hx : x.id = id
    · have : (x.id != id) = false := by simpa using hx
      rw [if_neg (by simp [hx])]
      rw [ih]
      by_cases hj : j = id
      · simp [hj]
      · have : (x.id == j) = false := by simp; omega
        simp [hj, this]
    · rw [if_pos (by simpa using hx), List.find?_cons, ih]
      by_cases hj : j = id
      · have : (x.id == j) = false := by simp; omega
        simp only [this, if_pos hj]
      · simp [hj]

theorem indexOf_id {l : List Item} {id : Nat} {x : Item} (h : indexOf l id = some x) : x.id = id := by
  have := List.find?_some h
  simpa using this

theorem indexOf_mem {l : List Item} {id : Nat} {x : Item} (h : indexOf l id = some x) : x ∈ l :=
  List.mem_of_find?_eq_some h

theorem wf_modify {l : List Item} (h : WfItems l) (id : Nat) (f : Item → Item)
    (hf : ∀ i, (f i).id = i.id) (hr : ∀ i ∈ l, i.id = id → 1 ≤ (f i).referenceCount) :
    WfItems (modify l id f) := by
  constructor
  · unfold modify
    rw [List.pairwise_map]
    apply h.sorted.imp
    intro a b hab
    have e : ∀ a : Item, (if a.id == id then f a else a).id = a.id := by
      intro a; split <;> simp [hf]
    rw [e, e]; exact hab
  · intro i hi
    unfold modify at hi
    rw [List.mem_map] at hi
    obtain ⟨a, ha, rfl⟩ := hi
    have hv := h.valid a ha
    split
    · next he => exact ⟨by rw [hf]; exact hv.1, hr a ha (by simpa using he)⟩
    · exact hv

theorem mem_treeAdd {x y : Item} {l : List Item} : y ∈ treeAdd x l ↔ y = x ∨ y ∈ l := by
  induction l with
  | nil => simp [treeAdd]
  | cons z l ih =>
    unfold treeAdd
    split
    · simp
    · simp only [List.mem_cons, ih]
      constructor
      · rintro (h | h | h) <;> simp [h]
      · rintro (h | h | h) <;> simp [h]

theorem wf_treeAdd {l : List Item} (h : WfItems l) (x : Item) (hx : indexOf l x.id = none)
    (hv : x.id ≠ 0 ∧ 1 ≤ x.referenceCount) : WfItems (treeAdd x l) := by
  constructor
  · have hs := h.sorted
    clear h
    induction l with
    | nil => simp [treeAdd]
    | cons y l ih =>
      rw [List.pairwise_cons] at hs
      simp only [indexOf, List.find?_cons] at hx
      split at hx
      · cases hx
      · next hy =>
        unfold treeAdd
        split
        · next hlt =>
          rw [List.pairwise_cons, List.pairwise_cons]
          refine ⟨?_, hs.1, hs.2⟩
          intro z hz
          rcases List.mem_cons.1 hz with rfl | hz
          · exact hlt
          · have := hs.1 z hz; omega
        · next hlt =>
          rw [List.pairwise_cons]
          refine ⟨?_, ih hx hs.2⟩
          intro z hz
          rcases mem_treeAdd.1 hz with rfl | hz
          · have : y.id ≠ z.id := by simpa using hy
            omega
          · exact hs.1 z hz
  · intro i hi
    rcases mem_treeAdd.1 hi with rfl | hi
    · exact hv
    · exact h.valid i hi

theorem wf_treeRemove {l : List Item} (h : WfItems l) (id : Nat) : WfItems (treeRemove l id) :=
  ⟨h.sorted.filter _, fun i hi => h.valid i (List.mem_filter.1 hi).1⟩

theorem find_items {r : Repo} {f : Nat} {l : List Item} (h : find r f = some l) : items r f = l := by
  simp [items, h]

theorem wf_store {r : Repo} (hr : Wf r) {f : Nat} {l : List Item} (hl : WfItems l) (hn : l ≠ []) :
    Wf (store r f l) := by
  intro g l' h
  rw [find_store] at h
  split at h
  · cases h; exact ⟨hl, hn⟩
  · exact hr g l' h

theorem wf_delete {r : Repo} (hr : Wf r) (f : Nat) : Wf (delete r f) := by
  intro g l' h
  rw [find_delete] at h
  split at h
  · cases h
  · exact hr g l' h

theorem modify_ne_nil {l : List Item} {id : Nat} {f : Item → Item} (h : l ≠ []) : modify l id f ≠ [] := by
  simpa [modify] using h

theorem entry_of_items {r r' : Repo} {g j : Nat} (h : items r g = items r' g) :
    entry r g j = entry r' g j := by unfold entry; rw [h]

/-- One call keeps the repository well-formed and acts on every entry as the specification says. -/
theorem step_refines {r r' : Repo} (hr : Wf r) (op : Op) (h : step r op = some r') :
    Wf r' ∧ ∀ file id, id ≠ 0 → entry r' file id = specStep file id (entry r file id) op := by
  cases op with
  | add f i n k =>
    simp only [step, Option.some.injEq] at h
    subst h
    unfold addItem
    by_cases hi : i = 0
    · rw [if_pos hi]
      exact ⟨hr, fun file id hid => by simp only [specStep]; rw [if_neg (by omega)]⟩
    · rw [if_neg hi]
      cases hf : find r f with
      | none =>
        refine ⟨wf_store hr ⟨by simp, by simp [hi]⟩ (by simp), ?_⟩
        intro file id hid
        simp only [entry, items_store, specStep]
        by_cases hff : file = f
        · subst hff
          rw [if_pos rfl]
          by_cases hii : i = id
          · simp [hii, indexOf, items, hf]
          · have : (i == id) = false := by simpa using hii
            simp [hii, indexOf, items, hf, this]
        · rw [if_neg hff, if_neg (by omega)]
      | some l =>
        obtain ⟨hl, hn⟩ := hr f l hf
        simp only
        cases hx : indexOf l i with
        | some x =>
          refine ⟨wf_store hr (wf_modify hl _ _ (fun _ => rfl) (fun _ _ _ => by simp)) (modify_ne_nil hn), ?_⟩
          intro file id hid
          simp only [entry, items_store, specStep]
          by_cases hff : file = f
          · subst hff
            rw [if_pos rfl, indexOf_modify, find_items hf]; rotate_left; (· intro _; rfl)
            by_cases hii : i = id
            · subst hii
              have := indexOf_id hx
              simp [hx, this]
            · rw [if_neg (by simp [hii])]
              cases hj : indexOf l id with
              | none => rfl
              | some y =>
                have := indexOf_id hj
                have hne : ¬ y.id = i := by omega
                simp [hne]
          · rw [if_neg hff, if_neg (by omega)]
        | none =>
          refine ⟨wf_store hr (wf_treeAdd hl _ hx ⟨hi, Nat.le_refl 1⟩) ?_, ?_⟩
          · intro e
            have : (⟨i, n, 1, k⟩ : Item) ∈ treeAdd ⟨i, n, 1, k⟩ l := mem_treeAdd.2 (Or.inl rfl)
            rw [e] at this; simp at this
          · intro file id hid
            simp only [entry, items_store, specStep]
            by_cases hff : file = f
            · subst hff
              rw [if_pos rfl, indexOf_treeAdd _ _ _ hx, find_items hf]
              by_cases hii : i = id
              · subst hii; simp [hx]
              · simp [hii]
            · rw [if_neg hff, if_neg (by omega)]
  | update f i n k =>
    simp only [step] at h
    unfold updateItem at h
    by_cases hi : i = 0
    · rw [if_pos hi] at h
      cases h
      exact ⟨hr, fun file id hid => by simp only [specStep]; rw [if_neg (by omega)]⟩
    · rw [if_neg hi] at h
      cases hf : find r f with
      | none => simp [hf] at h
      | some l =>
        obtain ⟨hl, hn⟩ := hr f l hf
        cases hx : indexOf l i with
        | none => simp [hf, hx] at h
        | some x =>
          simp only [hf, hx, Option.some.injEq] at h
          subst h
          refine ⟨wf_store hr (wf_modify hl _ _ (fun _ => rfl) (fun a ha _ => (hl.valid a ha).2)) (modify_ne_nil hn), ?_⟩
          intro file id hid
          simp only [entry, items_store, specStep]
          by_cases hff : file = f
          · subst hff
            rw [if_pos rfl, indexOf_modify, find_items hf]; rotate_left; (· intro _; rfl)
            by_cases hii : i = id
            · subst hii
              have := indexOf_id hx
              simp [hx, this]
            · rw [if_neg (by simp [hii])]
              cases hj : indexOf l id with
              | none => rfl
              | some y =>
                have := indexOf_id hj
                have hne : ¬ y.id = i := by omega
                simp [hne]
          · rw [if_neg hff, if_neg (by omega)]
  | remove f i =>
    simp only [step, Option.some.injEq] at h
    subst h
    unfold removeItem
    by_cases hi : i = 0
    · rw [if_pos hi]
      exact ⟨hr, fun file id hid => by simp only [specStep]; rw [if_neg (by omega)]⟩
    · rw [if_neg hi]
      cases hf : find r f with
      | none =>
        refine ⟨hr, fun file id hid => ?_⟩
        simp only [specStep]
        split
        · next h =>
          obtain ⟨rfl, rfl⟩ := h
          simp [entry, items, hf, indexOf]
        · rfl
      | some l =>
        obtain ⟨hl, hn⟩ := hr f l hf
        simp only
        cases hx : indexOf l i with
        | none =>
          refine ⟨hr, fun file id hid => ?_⟩
          simp only [specStep]
          split
          · next h =>
            obtain ⟨rfl, rfl⟩ := h
            simp [entry, find_items hf, hx]
          · rfl
        | some x =>
          have hxid := indexOf_id hx
          have hxv := hl.valid x (indexOf_mem hx)
          simp only
          split
          · next hc =>
            refine ⟨wf_store hr (wf_modify hl _ _ (fun _ => rfl) ?_) (modify_ne_nil hn), ?_⟩
            · intro a ha hai
              have : a = x := by
                have hs := hl.sorted
                clear hr hn hf
                induction l with
                | nil => simp at ha
                | cons y l ih =>
                  rw [List.pairwise_cons] at hs
                  simp only [indexOf, List.find?_cons] at hx
                  split at hx
                  · next hy =>
                    cases hx
                    rcases List.mem_cons.1 ha with rfl | ha
                    · rfl
                    · have := hs.1 a ha; omega
                  · next hy =>
                    rcases List.mem_cons.1 ha with rfl | ha
                    · simp [hai] at hy
                    · exact ih ⟨hs.2, fun i hi => hl.valid i (by simp [hi])⟩ hx ha hs.2
              subst this
              show 1 ≤ a.referenceCount - 1
              omega
            · intro file id hid
              simp only [entry, items_store, specStep]
              by_cases hff : file = f
              · subst hff
                rw [if_pos rfl, indexOf_modify, find_items hf]; rotate_left; (· intro _; rfl)
                by_cases hii : i = id
                · subst hii
                  simp [hx, hxid]; omega
                · rw [if_neg (by simp [hii])]
                  cases hj : indexOf l id with
                  | none => rfl
                  | some y =>
                    have := indexOf_id hj
                    have hne : ¬ y.id = i := by omega
                    simp [hne]
              · rw [if_neg hff, if_neg (by omega)]
          · next hc =>
            have key : ∀ r', (∀ g, items r' g = if g = f then treeRemove l i else items r g) →
                ∀ file id, id ≠ 0 → entry r' file id = specStep file id (entry r file id) (.remove f i) := by
              intro r' hr' file id hid
              simp only [entry, hr', specStep]
              by_cases hff : file = f
              · subst hff
                rw [if_pos rfl, indexOf_treeRemove, find_items hf]
                by_cases hii : i = id
                · subst hii
                  simp [hx]; omega
                · have : ¬ id = i := fun e => hii e.symm
                  simp [hii, this]
              · rw [if_neg hff, if_neg (by omega)]
            split
            · next he =>
              exact ⟨wf_delete hr f, key _ (fun g => by rw [items_delete, he])⟩
            · next he =>
              exact ⟨wf_store hr (wf_treeRemove hl i) he, key _ (fun g => items_store _ _ _ _)⟩

theorem runFrom_refines (ops : List Op) : ∀ (r r' : Repo), Wf r → ops.foldlM step r = some r' →
    Wf r' ∧ ∀ file id, id ≠ 0 →
      entry r' file id = ops.foldl (specStep file id) (entry r file id) := by
  induction ops with
  | nil => intro r r' hr h; simp at h; subst h; exact ⟨hr, fun _ _ _ => rfl⟩
  | cons op ops ih =>
    intro r r' hr h
    rw [List.foldlM_cons, Option.bind_eq_bind, Option.bind_eq_some_iff] at h
    obtain ⟨r1, h1, h2⟩ := h
    obtain ⟨hw, he⟩ := step_refines hr op h1
    obtain ⟨hw', he'⟩ := ih r1 r' hw h2
    refine ⟨hw', fun file id hid => ?_⟩
    rw [he' file id hid, he file id hid]; rfl

/-- **C28.**  After any history of calls the items listed for a file are exactly the referenced
identifiers with their counts and most recent names and kinds: the model is a reference counter per
file and identifier.  (Calls on other files or identifiers do not matter: `specStep` ignores
them.) -/
theorem code_model_refines (ops : List Op) (r : Repo) (h : run ops = some r) (file : Nat) (x : Item) :
    x ∈ items r file ↔ x.id ≠ 0 ∧
      specRun file x.id ops = some ⟨x.referenceCount, x.prettyName, x.kind⟩ := by
  obtain ⟨hw, he⟩ := runFrom_refines ops [] r (by intro f l h; simp [find] at h) h
  have hspec : ∀ id, id ≠ 0 → entry r file id = specRun file id ops := by
    intro id hid; rw [he file id hid]; rfl
  have hwf : WfItems (items r file) := by
    unfold items
    cases hf : find r file with
    | none => exact ⟨by simp, by simp⟩
    | some l => exact (hw file l hf).1
  constructor
  · intro hx
    have hid := (hwf.valid x hx).1
    refine ⟨hid, ?_⟩
    rw [← hspec x.id hid]
    unfold entry
    have : indexOf (items r file) x.id = some x := by
      have hs := hwf.sorted
      generalize items r file = l at hx hs
      induction l with
      | nil => simp at hx
      | cons y l ih =>
        rw [List.pairwise_cons] at hs
        simp only [indexOf, List.find?_cons]
        rcases List.mem_cons.1 hx with rfl | hx
        · simp
        · have := hs.1 x hx
          have hne : (y.id == x.id) = false := by simp; omega
          rw [hne]; exact ih hx hs.2
    rw [this]; rfl
  · rintro ⟨hid, hs⟩
    rw [← hspec x.id hid] at hs
    unfold entry at hs
    rw [Option.map_eq_some_iff] at hs
    obtain ⟨y, hy, he⟩ := hs
    have := indexOf_id hy
    have hm := indexOf_mem hy
    have : y = x := by cases x; cases y; simp_all
    rwa [← this]

/-- **C28.**  Each identifier is listed at most once (the list is strictly sorted), never an
invalid one. -/
theorem code_model_unique (ops : List Op) (r : Repo) (h : run ops = some r) (file : Nat) :
    (items r file).Pairwise (fun a b => a.id < b.id) ∧ ∀ x ∈ items r file, x.id ≠ 0 := by
  obtain ⟨hw, -⟩ := runFrom_refines ops [] r (by intro f l h; simp [find] at h) h
  unfold items
  cases hf : find r file with
  | none => simp
  | some l => exact ⟨(hw file l hf).1.sorted, fun x hx => ((hw file l hf).1.valid x hx).1⟩

/-- The number of references of `(file, id)` after a history: one more per `add`, one less (but
never below zero) per `remove`. -/
def references (file id : Nat) (ops : List Op) : Nat :=
  ops.foldl (fun n op =>
    match op with
    | .add f i _ _ => if f = file ∧ i = id then n + 1 else n
    | .remove f i => if f = file ∧ i = id then n - 1 else n
    | .update _ _ _ _ => n) 0

theorem spec_references (file id : Nat) (ops : List Op) :
    ((specRun file id ops).map Entry.count).getD 0 = references file id ops ∧
      ∀ e, specRun file id ops = some e → 1 ≤ e.count := by
  unfold specRun references
  have aux : ∀ (ops : List Op) (e : Option Entry) (n : Nat), (e.map Entry.count).getD 0 = n →
      (∀ x, e = some x → 1 ≤ x.count) →
      ((ops.foldl (specStep file id) e).map Entry.count).getD 0 = ops.foldl (fun n op =>
        match op with
        | .add f i _ _ => if f = file ∧ i = id then n + 1 else n
        | .remove f i => if f = file ∧ i = id then n - 1 else n
        | .update _ _ _ _ => n) n ∧
      ∀ x, ops.foldl (specStep file id) e = some x → 1 ≤ x.count := by
    intro ops
    induction ops with
    | nil => intro e n h1 h2; exact ⟨h1, h2⟩
    | cons op ops ih =>
      intro e n h1 h2
      simp only [List.foldl_cons]
      apply ih
      · cases op with
        | add f i n k => simp only [specStep]; split <;> simp [h1]
        | update f i n k => simp only [specStep]; split <;> (cases e <;> simpa using h1)
        | remove f i =>
          simp only [specStep]
          split
          · cases e with
            | none => simp at h1; subst h1; simp
            | some x =>
              have := h2 x rfl
              simp at h1; subst h1
              simp only [Option.bind_some]
              split
              · simp; omega
              · simp
          · exact h1
      · cases op with
        | add f i n k =>
          simp only [specStep]; split
          · intro x hx; cases hx; simp
          · exact h2
        | update f i n k =>
          simp only [specStep]; split
          · cases e with
            | none => simp
            | some y => intro x hx; simp at hx; subst hx; exact h2 y rfl
          · exact h2
        | remove f i =>
          simp only [specStep]
          split
          · cases e with
            | none => simp
            | some y =>
              simp only [Option.bind_some]
              intro x hx
              split at hx
              · cases hx
              · cases hx; simp; omega
          · exact h2
  exact aux ops none 0 rfl (by simp)

/-- **C28.**  An identifier is listed for a file iff, counting from its last absence, it was added
more often than removed; its reference count is that number. -/
theorem code_model_listed (ops : List Op) (r : Repo) (h : run ops = some r) (file id : Nat)
    (hid : id ≠ 0) :
    ((∃ x ∈ items r file, x.id = id) ↔ 0 < references file id ops) ∧
      ∀ x ∈ items r file, x.id = id → x.referenceCount = references file id ops := by
  have hs := spec_references file id ops
  constructor
  · constructor
    · rintro ⟨x, hx, rfl⟩
      obtain ⟨_, he⟩ := (code_model_refines ops r h file x).1 hx
      rw [he] at hs
      have := hs.2 _ rfl
      simp at hs this; omega
    · intro hp
      cases he : specRun file id ops with
      | none => rw [he] at hs; simp at hs; omega
      | some e =>
        exact ⟨⟨id, e.name, e.count, e.kind⟩, (code_model_refines ops r h file _).2 ⟨hid, he⟩, rfl⟩
  · rintro x hx rfl
    obtain ⟨_, he⟩ := (code_model_refines ops r h file x).1 hx
    rw [he] at hs
    simpa using hs.1

/-- The name and kind given in the last `add` or `update` call for `(file, id)`. -/
def lastGiven (file id : Nat) : List Op → Option (Nat × Nat)
  | [] => none
  | op :: ops => (lastGiven file id ops).or
      (match op with
        | .add f i n k => if f = file ∧ i = id then some (n, k) else none
        | .update f i n k => if f = file ∧ i = id then some (n, k) else none
        | .remove _ _ => none)

/-- **C28.**  A listed identifier has the name and kind of the last `add` or `update` call for
it. -/
theorem code_model_most_recent (ops : List Op) (r : Repo) (h : run ops = some r) (file : Nat)
    (x : Item) (hx : x ∈ items r file) : lastGiven file x.id ops = some (x.prettyName, x.kind) := by
  obtain ⟨_, he⟩ := (code_model_refines ops r h file x).1 hx
  have aux : ∀ (id : Nat) (ops : List Op) (e : Option Entry) (y : Entry),
      ops.foldl (specStep file id) e = some y →
      (lastGiven file id ops).or (e.map (fun z => (z.name, z.kind))) = some (y.name, y.kind) := by
    intro id ops
    induction ops with
    | nil => intro e y h; simp at h; subst h; simp [lastGiven]
    | cons op ops ih =>
      intro e y h
      have := ih _ y h
      simp only [lastGiven]
      cases hl : lastGiven file id ops with
      | some v => rw [hl] at this; simpa using this
      | none =>
        rw [hl] at this
        simp only [Option.none_or] at this ⊢
        cases op with
        | add f i n k =>
          simp only [specStep] at this ⊢
          split at this
          · next hc => simpa [hc] using this
          · next hc => simpa [hc] using this
        | update f i n k =>
          simp only [specStep] at this ⊢
          split at this
          · next hc => cases e <;> simp_all
          · next hc => simpa [hc] using this
        | remove f i =>
          simp only [specStep] at this ⊢
          split at this
          · cases e with
            | none => simp at this
            | some z =>
              simp only [Option.bind_some] at this
              split at this
              · simp at this
              · simpa using this
          · simpa using this
  have := aux x.id ops none _ he
  simpa using this

/-- **C28.**  A history goes wrong only by updating an identifier that is not listed. -/
theorem code_model_update_precondition (ops : List Op) (op : Op) (r : Repo) (h : run ops = some r)
    (hbad : step r op = none) :
    ∃ f i n k, op = .update f i n k ∧ i ≠ 0 ∧ references f i ops = 0 := by
  cases op with
  | add f i n k => simp [step] at hbad
  | remove f i => simp [step] at hbad
  | update f i n k =>
    refine ⟨f, i, n, k, rfl, ?_⟩
    simp only [step, updateItem] at hbad
    by_cases hi : i = 0
    · simp [hi] at hbad
    · refine ⟨hi, ?_⟩
      rw [if_neg hi] at hbad
      have hl := (code_model_listed ops r h f i hi).1
      have : ¬ ∃ x ∈ items r f, x.id = i := by
        rintro ⟨x, hx, hxi⟩
        unfold items at hx
        cases hf : find r f with
        | none => simp [hf] at hx
        | some l =>
          simp only [hf] at hbad hx
          cases hj : indexOf l i with
          | some y => simp [hj] at hbad
          | none =>
            unfold indexOf at hj
            rw [List.find?_eq_none] at hj
            exact hj x (by simpa using hx) (by simpa using hxi)
      rw [hl] at this
      omega

example : (run [.add 1 5 10 0, .add 1 3 11 1, .add 1 5 12 1, .add 2 5 13 0, .remove 1 5,
    .update 1 3 14 0, .remove 2 5, .remove 2 5]).map (fun r => (items r 1, items r 2)) =
    some ([⟨3, 14, 1, 0⟩, ⟨5, 12, 1, 1⟩], []) := by decide +kernel

end KPhp.CodeModel
