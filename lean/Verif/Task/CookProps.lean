import Verif.Task.CookModel

/-!
# C47: a crude sample is cooked by the first matching cooker

Specification: `Satisfies` says when a sample satisfies all the constraints of a cooker.
-/

namespace Verif.Task

variable {V D R E : Type} [DecidableEq V]

/-- The sample satisfies all the constraints that are given: the subflavor, each of the wanted subflavors (others may be there, too), the
condition. -/
def Satisfies (c : Cooker V D R E) (s : Crude V D) : Prop :=
  (∀ f, c.isSubflavor = some f → s.subflavor = some f) ∧
  (∀ d, c.hasSubflavors = some d → ∀ k v, (k, v) ∈ d → s.subflavors.lookup k = some v) ∧
  (∀ f, c.condition = some f → f s = .ok true)

/-- The condition does not raise for the sample. -/
def Quiet (c : Cooker V D R E) (s : Crude V D) : Prop := ∀ f e, c.condition = some f → f s ≠ .raised e

omit [DecidableEq V] in
theorem lookup_eq (k : String) (l : List (String × V)) : lookup k l = l.lookup k := by
  induction l with
  | nil => rfl
  | cons p l ih =>
    obtain ⟨k', v⟩ := p
    by_cases h : k' = k
    · subst h; simp [lookup]
    · have : (k == k') = false := by simpa using fun e => h e.symm
      simp [lookup, List.lookup, h, this, ih]

theorem subflavorsMatch_iff (want have_ : List (String × V)) :
    subflavorsMatch want have_ = true ↔ ∀ k v, (k, v) ∈ want → have_.lookup k = some v := by
  induction want with
  | nil => simp [subflavorsMatch]
  | cons e l ih =>
    obtain ⟨k, v⟩ := e
    simp only [subflavorsMatch, lookup_eq]
    by_cases h : have_.lookup k = some v
    · simp only [h, ne_eq, not_true, if_false, ih, List.mem_cons]
      constructor
      · rintro h' k' v' (h1 | h1)
        · cases h1; exact h
        · exact h' k' v' h1
      · intro h' k' v' h1
        exact h' k' v' (Or.inr h1)
    · simp only [ne_eq, h, not_false_iff, if_true, Bool.false_eq_true, List.mem_cons, false_iff]
      intro h'
      exact h (h' k v (Or.inl rfl))

omit [DecidableEq V] in
theorem subOk_iff (c : Cooker V D R E) (s : Crude V D) :
    c.subOk s = true ↔ ∀ f, c.isSubflavor = some f → s.subflavor = some f := by
  unfold Cooker.subOk
  cases c.isSubflavor <;> simp

theorem subsOk_iff (c : Cooker V D R E) (s : Crude V D) :
    c.subsOk s = true ↔ ∀ d, c.hasSubflavors = some d → ∀ k v, (k, v) ∈ d → s.subflavors.lookup k = some v := by
  unfold Cooker.subsOk
  cases c.hasSubflavors with
  | none => simp
  | some d => simp only [subflavorsMatch_iff, Option.some.injEq, forall_eq']

theorem isMatch_true (c : Cooker V D R E) (s : Crude V D) : c.isMatch s = .ok true ↔ Satisfies c s := by
  unfold Satisfies
  rw [← subOk_iff, ← subsOk_iff]
  unfold Cooker.isMatch
  by_cases h1 : c.subOk s = true <;> by_cases h2 : c.subsOk s = true <;> simp [h1, h2]
  cases c.condition with
  | none => simp
  | some f =>
    simp only [Option.some.injEq, forall_eq']
    generalize f s = x
    cases x <;> simp

theorem isMatch_quiet (c : Cooker V D R E) (s : Crude V D) (hq : Quiet c s) (e : E) : c.isMatch s ≠ .raised e := by
  obtain ⟨cook, isSub, hasSub, cond⟩ := c
  simp only [Cooker.isMatch]
  generalize Cooker.subOk _ s = x
  generalize Cooker.subsOk _ s = y
  cases x <;> cases y <;> simp only [Bool.not_false, Bool.not_true, if_true, Bool.false_eq_true, if_false, ne_eq, reduceCtorEq, not_false_iff]
  cases cond with
  | none => simp
  | some f =>
    simp only
    cases hf : f s with
    | ok b => simp
    | raised e' => exact absurd hf (hq f e' rfl)

theorem isMatch_false (c : Cooker V D R E) (s : Crude V D) (hq : Quiet c s) (h : ¬ Satisfies c s) : c.isMatch s = .ok false := by
  cases hm : c.isMatch s with
  | ok b =>
    cases b with
    | true => exact absurd ((isMatch_true c s).1 hm) h
    | false => rfl
  | raised e => exact absurd hm (isMatch_quiet c s hq e)

/-- **C47**: if `c` is the first registered cooker all of whose constraints the sample satisfies, the sample is cooked by `c`. (The
conditions of the cookers before do not raise.) -/
theorem C47_first_match (before after : List (Cooker V D R E)) (c : Cooker V D R E) (s : Crude V D) (r : R)
    (hb : ∀ b ∈ before, ¬ Satisfies b s ∧ Quiet b s) (hc : Satisfies c s) (hr : c.cook s = .ok r) :
    cookStage (before ++ c :: after) (.crude s) = .sample r := by
  have hne : (before ++ c :: after).isEmpty = false := by cases before <;> rfl
  simp only [cookStage, hne, cookCrude]
  clear hne
  induction before with
  | nil => simp [cookLoop, (isMatch_true c s).2 hc, hr]
  | cons b l ih =>
    simp only [List.cons_append, cookLoop, isMatch_false b s (hb b (by simp)).2 (hb b (by simp)).1]
    exact ih (fun b' hb' => hb b' (by simp [hb']))

/-- **C47** (converse): a sample that was cooked was cooked by the first matching cooker. -/
theorem C47_only_match (cookers : List (Cooker V D R E)) (s : Crude V D) (r : R)
    (h : cookStage cookers (.crude s) = .sample r) :
    ∃ before c after, cookers = before ++ c :: after ∧ (∀ b ∈ before, ¬ Satisfies b s) ∧ Satisfies c s ∧ c.cook s = .ok r := by
  have h' : cookLoop cookers s = .sample r := by
    simp only [cookStage] at h
    split at h
    · cases h
    · exact h
  clear h
  induction cookers with
  | nil => simp [cookLoop] at h'
  | cons c l ih =>
    simp only [cookLoop] at h'
    cases hm : c.isMatch s with
    | raised e => simp [hm] at h'
    | ok b =>
      cases b with
      | true =>
        rw [hm] at h'
        simp only at h'
        refine ⟨[], c, l, rfl, by simp, (isMatch_true c s).1 hm, ?_⟩
        cases hk : c.cook s with
        | ok r' => rw [hk] at h'; simp only [Cooked.sample.injEq] at h'; rw [h']
        | raised e => rw [hk] at h'; cases h'
      | false =>
        rw [hm] at h'
        obtain ⟨before, c', after, rfl, h1, h2, h3⟩ := ih h'
        refine ⟨c :: before, c', after, rfl, ?_, h2, h3⟩
        intro b hb
        rcases List.mem_cons.1 hb with rfl | hb
        · intro hs
          rw [(isMatch_true _ s).2 hs] at hm
          cases hm
        · exact h1 b hb

/-- **C47** (no match), partial: if there are cookers and none matches, `NotImplementedError` is raised. Missing: without any cookers nothing is
raised (`C47_violated`). -/
theorem C47_no_match_partial (cookers : List (Cooker V D R E)) (s : Crude V D) (hne : cookers ≠ [])
    (hb : ∀ b ∈ cookers, ¬ Satisfies b s ∧ Quiet b s) : cookStage cookers (.crude s) = .notImplemented := by
  have hne' : cookers.isEmpty = false := by cases cookers with | nil => exact absurd rfl hne | cons => rfl
  simp only [cookStage, hne', cookCrude]
  clear hne hne'
  induction cookers with
  | nil => rfl
  | cons b l ih =>
    simp only [cookLoop, isMatch_false b s (hb b (by simp)).2 (hb b (by simp)).1]
    exact ih (fun b' hb' => hb b' (by simp [hb']))

/-- Samples that are already cooked pass unchanged. -/
theorem C47_samples_pass (cookers : List (Cooker V D R E)) (hne : cookers ≠ []) (r : R) :
    cookStage cookers (.sample r) = .sample r := by
  cases cookers with
  | nil => exact absurd rfl hne
  | cons => rfl

/-- Three cookers: by subflavor, by subflavors and a condition, any. -/
def exCookers : List (Cooker Nat Nat Nat Nat) :=
  [{ cook := fun s => .ok (s.data + 100), isSubflavor := some "a" },
   { cook := fun s => .ok (s.data + 200), hasSubflavors := some [("x", 1), ("y", 2)], condition := some fun s => .ok (s.data > 5) },
   { cook := fun s => .ok (s.data + 300), hasSubflavors := some [("x", 1)] }]

/-- The hypotheses are met: the second cooker is the first that matches. -/
example : Satisfies exCookers[1] (⟨some "b", [("y", 2), ("z", 0), ("x", 1)], 7⟩ : Crude Nat Nat) ∧
    ¬ Satisfies exCookers[0] (⟨some "b", [("y", 2), ("z", 0), ("x", 1)], 7⟩ : Crude Nat Nat) := by
  rw [← isMatch_true, ← isMatch_true]
  decide

example : cookLoop exCookers ⟨some "b", [("y", 2), ("z", 0), ("x", 1)], 7⟩ = .sample 207 := rfl
example : cookLoop exCookers ⟨some "b", [("y", 2), ("z", 0), ("x", 1)], 3⟩ = .sample 303 := rfl
example : cookLoop exCookers ⟨some "b", [("x", 2)], 3⟩ = .notImplemented := rfl

/-- **C47 does not hold** if no cooker is registered: then a crude sample is passed on uncooked, no error is raised. -/
theorem C47_violated (s : Crude V D) : cookStage ([] : List (Cooker V D R E)) (.crude s) = .uncooked (.crude s) := rfl

end Verif.Task
