/-!
# Parse jobs (C41)

Models `ParseJob::run` (phpparsejob.cpp:60-205): when a document is parsed, which features its context gets, and when it is scheduled
again.  The results of the collaborators (reading, parsing, the builders, requests to abort) are inputs.  `BackgroundParser` belongs to
KDevPlatform; `Step` below says what is assumed about it.
-/
namespace KPhp.ParseJob

/-- The feature flags of `TopDUContext::Features` used (bit sets), `Rescheduled = LastFeature` (phpparsejob.h:34), and
`BackgroundParser::WorstPriority`. -/
structure Consts where
  visible : Nat
  uses : Nat
  mask : Nat
  rescheduledBit : Nat
  worst : Int

/-- the flag `Rescheduled` -/
def Consts.rescheduled (k : Consts) : Nat := 2 ^ k.rescheduledBit

/-- A job as the background parser knows it. -/
structure Job where
  doc : Nat
  features : Nat
  priority : Int
deriving DecidableEq, Repr

/-- What happens during a run. -/
structure Env where
  /-- `isUpdateRequired` -/
  updateRequired : Bool
  /-- `readContents` fails -/
  readError : Bool
  /-- `session.parse` -/
  matched : Bool
  /-- features of the existing context -/
  existing : Option Nat
  isInternal : Bool
  /-- `DeclarationBuilder::hadUnresolvedIdentifiers` -/
  declUnresolved : Bool
  /-- `UseBuilder::hadUnresolvedIdentifiers` -/
  useUnresolved : Bool
  /-- `abortRequested()` after parsing (or shutting down), before building, after building, at the end -/
  abort1 : Bool
  abort2 : Bool
  abort3 : Bool
  abort4 : Bool

/-- How a run ends. -/
inductive End where
  | skipped | aborted
  /-- built, with these features -/
  | built (features : Nat)
  | noMatch
deriving DecidableEq, Repr

/-- phpparsejob.cpp:104-110 -/
def newFeatures (k : Consts) (e : Env) (j : Job) : Nat :=
  let f := match e.existing with
    | some x => j.features ||| x
    | none => j.features
  f &&& k.mask

/-- phpparsejob.cpp:129-141 -/
def unresolved (k : Consts) (e : Env) (j : Job) : Bool :=
  let u := e.declUnresolved
  if newFeatures k e j &&& k.uses ≠ 0 ∧ e.isInternal = false then (if e.useUnresolved then true else u) else u

/-- phpparsejob.cpp:143-159: the job added to the background parser -/
def reschedule (k : Consts) (e : Env) (j : Job) : Option Job :=
  if unresolved k e j then
    if j.features &&& k.rescheduled = 0 then
      some ⟨j.doc, j.features ||| k.visible ||| k.rescheduled, min (j.priority + 100) k.worst⟩
    else none
  else none

/-- phpparsejob.cpp:60-205 -/
def run (k : Consts) (e : Env) (j : Job) : End × Option Job :=
  if j.features &&& k.rescheduled = 0 ∧ e.updateRequired = false then (.skipped, none)
  else if e.readError then (.aborted, none)
  else if e.abort1 then (.aborted, none)
  else if e.matched then
    if e.abort2 then (.aborted, none)
    else if e.abort3 then (.aborted, none)
    else if e.abort4 then (.aborted, reschedule k e j)
    else (.built (newFeatures k e j), reschedule k e j)
  else (.noMatch, none)

/-! ## Specification -/

/-- the job was scheduled again by an earlier run -/
def Again (k : Consts) (j : Job) : Prop := j.features.testBit k.rescheduledBit = true

instance (k : Consts) (j : Job) : Decidable (Again k j) := inferInstanceAs (Decidable (_ = true))

/-- the document is read, parsed and built -/
structure Builds (k : Consts) (e : Env) (j : Job) : Prop where
  needed : Again k j ∨ e.updateRequired = true
  read : e.readError = false
  parsed : e.matched = true
  notAborted : e.abort1 = false ∧ e.abort2 = false ∧ e.abort3 = false

/-- a name could not be resolved: by the declaration builder, or by the use builder, which runs if some use feature is wanted and the
file is not the one with the internal functions -/
def Missing (k : Consts) (e : Env) (j : Job) : Prop :=
  e.declUnresolved = true ∨
  ((∃ i, (newFeatures k e j).testBit i = true ∧ k.uses.testBit i = true) ∧ e.isInternal = false ∧ e.useUnresolved = true)

theorem and_ne_zero (a b : Nat) : a &&& b ≠ 0 ↔ ∃ i, a.testBit i = true ∧ b.testBit i = true := by
  constructor
  · intro h
    obtain ⟨i, hi⟩ := Nat.exists_testBit_of_ne_zero h
    rw [Nat.testBit_and, Bool.and_eq_true] at hi
    exact ⟨i, hi⟩
  · rintro ⟨i, h1, h2⟩ h
    have : (a &&& b).testBit i = true := by rw [Nat.testBit_and, h1, h2]; rfl
    rw [h, Nat.zero_testBit] at this
    exact absurd this (by simp)

theorem again_iff (k : Consts) (j : Job) : j.features &&& k.rescheduled ≠ 0 ↔ Again k j := by
  rw [and_ne_zero]
  unfold Consts.rescheduled Again
  constructor
  · rintro ⟨i, h1, h2⟩
    rw [Nat.testBit_two_pow] at h2
    have : k.rescheduledBit = i := by simpa using h2
    rw [this]; exact h1
  · intro h
    exact ⟨_, h, by rw [Nat.testBit_two_pow]; simp⟩

theorem unresolved_iff (k : Consts) (e : Env) (j : Job) : unresolved k e j = true ↔ Missing k e j := by
  unfold unresolved Missing
  rw [← and_ne_zero]
  cases e.declUnresolved <;> cases e.useUnresolved <;> cases e.isInternal <;> simp

/-- **C41 (run).** A run schedules its document again exactly if it built it, names were missing and the job was not itself
scheduled again; the new job is for the same document, is marked, wants the features of the old one and the visible declarations, and
has a priority that is worse by 100, or the worst. -/
theorem rescheduled_iff (k : Consts) (e : Env) (j j' : Job) :
    (run k e j).2 = some j' ↔ Builds k e j ∧ Missing k e j ∧ ¬ Again k j ∧
      j'.doc = j.doc ∧ j'.priority = min (j.priority + 100) k.worst ∧
      ∀ i, j'.features.testBit i = (j.features.testBit i || k.visible.testBit i || (k.rescheduledBit == i)) := by
  have hr : reschedule k e j = some j' ↔ Missing k e j ∧ ¬ Again k j ∧ j'.doc = j.doc ∧
      j'.priority = min (j.priority + 100) k.worst ∧
      ∀ i, j'.features.testBit i = (j.features.testBit i || k.visible.testBit i || (k.rescheduledBit == i)) := by
    unfold reschedule
    rw [← unresolved_iff, ← again_iff]
    cases unresolved k e j with
    | false => simp
    | true =>
      simp only [if_true, true_and, Decidable.not_not]
      by_cases h : j.features &&& k.rescheduled = 0
      · simp only [h, if_true, true_and, Option.some.injEq]
        obtain ⟨d, f, p⟩ := j'
        simp only [Job.mk.injEq]
        constructor
        · rintro ⟨rfl, rfl, rfl⟩
          refine ⟨rfl, rfl, ?_⟩
          intro i
          rw [Nat.testBit_or, Nat.testBit_or, Consts.rescheduled, Nat.testBit_two_pow]
          rfl
        · rintro ⟨rfl, rfl, h⟩
          refine ⟨rfl, ?_, rfl⟩
          apply Nat.eq_of_testBit_eq
          intro i
          rw [h i, Nat.testBit_or, Nat.testBit_or, Consts.rescheduled, Nat.testBit_two_pow]
          rfl
      · simp [h]
  unfold run
  by_cases h0 : j.features &&& k.rescheduled = 0 ∧ e.updateRequired = false
  · rw [if_pos h0]
    simp only [reduceCtorEq, false_iff]
    rintro ⟨⟨hn, -⟩, -⟩
    rw [← again_iff] at hn
    rcases hn with hn | hn
    · exact hn h0.1
    · rw [h0.2] at hn; exact absurd hn (by simp)
  · rw [if_neg h0]
    have hn : Again k j ∨ e.updateRequired = true := by
      rw [← again_iff]
      by_cases h1 : j.features &&& k.rescheduled = 0
      · right
        cases hu : e.updateRequired with
        | true => rfl
        | false => exact absurd ⟨h1, hu⟩ h0
      · exact Or.inl h1
    have hb : Builds k e j ↔ e.readError = false ∧ e.matched = true ∧ e.abort1 = false ∧ e.abort2 = false ∧ e.abort3 = false :=
      ⟨fun h => ⟨h.read, h.parsed, h.notAborted⟩, fun h => ⟨hn, h.1, h.2.1, h.2.2⟩⟩
    rw [hb]
    cases e.readError <;> cases e.abort1 <;> cases e.matched <;> cases e.abort2 <;> cases e.abort3 <;> cases e.abort4 <;>
      simp [hr]

/-- The new priority is never better than the old one, as long as that is not worse than the worst. -/
theorem rescheduled_priority (k : Consts) (e : Env) (j j' : Job) (h : (run k e j).2 = some j') (hj : j.priority ≤ k.worst) :
    j.priority ≤ j'.priority ∧ j'.priority ≤ k.worst ∧ (j.priority < k.worst → j.priority < j'.priority) := by
  have := ((rescheduled_iff k e j j').1 h).2.2.2.2.1
  rw [this]
  omega

/-- **C41 (skipping).** A document is left alone exactly if its context is up to date and it was not scheduled again. -/
theorem skipped_iff (k : Consts) (e : Env) (j : Job) :
    (run k e j).1 = .skipped ↔ ¬ Again k j ∧ e.updateRequired = false := by
  rw [← again_iff, Decidable.not_not]
  unfold run
  by_cases h : j.features &&& k.rescheduled = 0 ∧ e.updateRequired = false
  · rw [if_pos h]; simp [h]
  · rw [if_neg h]
    simp only [h, iff_false]
    cases e.readError <;> cases e.abort1 <;> cases e.matched <;> cases e.abort2 <;> cases e.abort3 <;> cases e.abort4 <;> simp

/-- **C41 (features).** The features stored with a context are those wanted together with those it had, without the flags that are not
features: in particular the mark that a job was scheduled again is never stored. -/
theorem stored_features (k : Consts) (e : Env) (j : Job) (f : Nat) (h : (run k e j).1 = .built f) :
    (∀ i, f.testBit i = ((j.features.testBit i || (e.existing.getD 0).testBit i) && k.mask.testBit i)) ∧
    (k.mask.testBit k.rescheduledBit = false → f.testBit k.rescheduledBit = false) := by
  have hf : f = newFeatures k e j := by
    unfold run at h
    split at h
    · simp at h
    · revert h
      cases e.readError <;> cases e.abort1 <;> cases e.matched <;> cases e.abort2 <;> cases e.abort3 <;> cases e.abort4 <;> simp [eq_comm]
  have hbits : ∀ i, f.testBit i = ((j.features.testBit i || (e.existing.getD 0).testBit i) && k.mask.testBit i) := by
    intro i
    rw [hf, newFeatures, Nat.testBit_and]
    cases e.existing with
    | none => simp
    | some x => simp
  refine ⟨hbits, ?_⟩
  intro hm
  rw [hbits, hm, Bool.and_false]

/-! ## Histories -/

/-- The background parser: the jobs waiting, the number of requests and of runs so far. -/
structure State where
  queue : List Job
  requests : Nat
  runs : Nat

/-- What can happen: somebody requests a document (without the mark, which only `ParseJob` uses); two entries for one document are
merged (the features united, with some priority); a waiting job is run, in any order and with any outcome. -/
inductive Step (k : Consts) : State → State → Prop
  | request {s j} : ¬ Again k j → Step k s ⟨j :: s.queue, s.requests + 1, s.runs⟩
  | merge {a b c : List Job} {i j : Job} {n m : Nat} {p : Int} : i.doc = j.doc →
      Step k ⟨a ++ i :: b ++ j :: c, n, m⟩ ⟨a ++ ⟨i.doc, i.features ||| j.features, p⟩ :: b ++ c, n, m⟩
  | run {a b : List Job} {j : Job} {n m : Nat} (e : Env) :
      Step k ⟨a ++ j :: b, n, m⟩ ⟨a ++ b ++ (ParseJob.run k e j).2.toList, n, m + 1⟩

/-- a history -/
inductive Steps (k : Consts) : State → State → Prop
  | refl {s} : Steps k s s
  | step {s t r} : Steps k s t → Step k t r → Steps k s r

/-- the runs a waiting job can still cause -/
def cost (k : Consts) (j : Job) : Nat := if Again k j then 1 else 2

def total (k : Consts) (q : List Job) : Nat := (q.map (cost k)).sum

theorem total_append (k : Consts) (a b : List Job) : total k (a ++ b) = total k a + total k b := by simp [total]

theorem total_cons (k : Consts) (a : Job) (b : List Job) : total k (a :: b) = cost k a + total k b := by simp [total]

theorem run_cost (k : Consts) (e : Env) (j : Job) : total k (run k e j).2.toList + 1 ≤ cost k j := by
  cases h : (run k e j).2 with
  | none =>
    simp only [Option.toList, total, List.map_nil, List.sum_nil, cost]
    split <;> omega
  | some j' =>
    obtain ⟨-, -, hn, -, -, hb⟩ := (rescheduled_iff k e j j').1 h
    have ha : Again k j' := by
      have := hb k.rescheduledBit
      simpa [Again] using this
    simp only [Option.toList, total, List.map_cons, List.map_nil, List.sum_cons, List.sum_nil, cost, if_pos ha, if_neg hn]
    omega

theorem merge_cost (k : Consts) (i j : Job) (p : Int) : cost k ⟨i.doc, i.features ||| j.features, p⟩ ≤ cost k i := by
  unfold cost
  by_cases hi : Again k i
  · have : Again k ⟨i.doc, i.features ||| j.features, p⟩ := by
      unfold Again at hi ⊢
      simp [Nat.testBit_or, hi]
    simp [this, hi]
  · rw [if_neg hi]; split <;> omega

/-- **C41 (histories).** Whatever is requested, merged, run and in whatever order: there are at most two runs for every request. So
every document stops being parsed when nobody asks for it any more. -/
theorem runs_bounded (k : Consts) (s : State) (h : Steps k ⟨[], 0, 0⟩ s) : s.runs + total k s.queue ≤ 2 * s.requests := by
  generalize hs : (⟨[], 0, 0⟩ : State) = s0 at h
  induction h with
  | refl => subst hs; simp [total]
  | step _ hstep ih =>
    cases hstep with
    | request hn =>
      simp only [total_cons, cost, if_neg hn]
      omega
    | @merge a b c i j n m p _ =>
      have := merge_cost k i j p
      simp only [total_append, total_cons] at ih ⊢
      omega
    | @run a b j n m e =>
      have := run_cost k e j
      simp only [total_append, total_cons] at ih ⊢
      omega

/-- **C41 (one document).** For a request that is alone, the first run may schedule the document again, the second never does. -/
theorem at_most_once (k : Consts) (e e' : Env) (j j' : Job) (h : (run k e j).2 = some j') : (run k e' j').2 = none := by
  obtain ⟨-, -, -, -, -, hb⟩ := (rescheduled_iff k e j j').1 h
  cases h' : (run k e' j').2 with
  | none => rfl
  | some j'' =>
    exfalso
    refine ((rescheduled_iff k e' j' j'').1 h').2.2.1 ?_
    have := hb k.rescheduledBit
    simpa [Again] using this

/-- A file with a missing include, requested once: two runs. -/
def demo : Consts := ⟨18, 114, 1023, 10, 1000⟩
def demoEnv : Env := ⟨true, false, true, none, false, true, false, false, false, false, false⟩

example : run demo demoEnv ⟨7, 50, 0⟩ = (.built 50, some ⟨7, 1074, 100⟩) := by decide +kernel
example : (run demo demoEnv ⟨7, 1074, 100⟩).2 = none := by decide +kernel
example : Steps demo ⟨[], 0, 0⟩ ⟨[], 1, 2⟩ :=
  .step (.step (.step .refl (.request (j := ⟨7, 50, 0⟩) (by decide))) (.run (a := []) (b := []) demoEnv)) (.run (a := []) (b := []) demoEnv)

end KPhp.ParseJob
