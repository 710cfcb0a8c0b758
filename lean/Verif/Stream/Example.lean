import Verif.Stream.Lemmas

/-!
# A small concrete dataset, and an evaluator

`listD xs` delivers the list `xs` in every pass. It is used to show that the hypotheses on inner datasets
are satisfiable, and for counterexamples. (It is not part of the code base; the closest thing is the
`BlockDataset`/`NestedDataset` of the tests.)
-/

namespace Verif.Stream

variable {σ α κ C : Type}

/-- Evaluate: the events shown within `fuel` small steps. -/
def Dataset.eval (D : Dataset σ α κ) : Nat → σ → List (Ev α)
  | 0, _ => []
  | n + 1, s =>
    match D.step s with
    | .yield a s' => .item a :: D.eval n s'
    | .skip s' => D.eval n s'
    | .stop s' => .fin :: D.eval n s'
    | .raise => [.err]

theorem Dataset.trace_skip {D : Dataset σ α κ} {s s' : σ} {es : List (Ev α)} (h : D.step s = .skip s')
    (ht : D.Trace s' es) : D.Trace s es := (Dataset.Equiv.of_skip h es).2 ht

theorem Dataset.eval_trace (D : Dataset σ α κ) (n : Nat) (s : σ) : D.Trace s (D.eval n s) := by
  induction n generalizing s with
  | zero => exact .nil
  | succ n ih =>
    simp only [Dataset.eval]
    split
    · next h => exact .item (.item h) (ih _)
    · next h => exact Dataset.trace_skip h (ih _)
    · next h => exact .fin (.fin h) (ih _)
    · next h => exact .err (.err h)

theorem Dataset.Trace.det {D : Dataset σ α κ} {s : σ} {es fs : List (Ev α)} (h : D.Trace s es)
    (h' : D.Trace s fs) (hl : es.length = fs.length) : es = fs := by
  induction h generalizing fs with
  | nil => cases fs with
    | nil => rfl
    | cons => cases hl
  | item h1 _ ih =>
    cases h' with
    | nil => cases hl
    | item h3 h4 => cases h1.det h3; rw [ih h4 (by simpa using hl)]
    | fin h3 h4 => cases h1.det h3
    | err h3 => cases h1.det h3
  | fin h1 _ ih =>
    cases h' with
    | nil => cases hl
    | item h3 h4 => cases h1.det h3
    | fin h3 h4 => cases h1.det h3; rw [ih h4 (by simpa using hl)]
    | err h3 => cases h1.det h3
  | err h1 =>
    cases h' with
    | nil => cases hl
    | item h3 h4 => cases h1.det h3
    | fin h3 h4 => cases h1.det h3
    | err h3 => rfl

theorem Dataset.Trace.take {D : Dataset σ α κ} {s : σ} {es : List (Ev α)} (h : D.Trace s es) (n : Nat) :
    D.Trace s (es.take n) := by
  induction h generalizing n with
  | nil => simpa using .nil
  | item h1 _ ih => cases n with
    | zero => exact .nil
    | succ n => exact .item h1 (ih n)
  | fin h1 _ ih => cases n with
    | zero => exact .nil
    | succ n => exact .fin h1 (ih n)
  | err h1 => cases n with
    | zero => exact .nil
    | succ n => simpa using .err h1

/-- Two states showing different events are not equivalent. -/
theorem Dataset.not_equiv {D : Dataset σ α κ} {s t : σ} (n k : Nat)
    (h : (D.eval n s).take k ≠ (D.eval n t).take k)
    (hl : ((D.eval n s).take k).length = ((D.eval n t).take k).length) : ¬ D.Equiv s t := by
  intro he
  exact h (((he _).1 ((D.eval_trace n s).take k)).det ((D.eval_trace n t).take k) hl)

/-- The state after the first `k` events found within `fuel` steps. -/
def Dataset.after (D : Dataset σ α κ) : Nat → Nat → σ → Option σ
  | _, 0, s => some s
  | 0, _, _ => none
  | n + 1, k + 1, s =>
    match D.step s with
    | .yield _ s' => D.after n k s'
    | .skip s' => D.after n (k + 1) s'
    | .stop s' => D.after n k s'
    | .raise => none

theorem Dataset.after_paused {D : Dataset σ α κ} {r : Bool} {n k : Nat} {s s' : σ}
    (h : D.after n k s = some s') (hs : D.Paused r s) : D.Paused r s' := by
  have key : ∀ n k s, D.after n k s = some s' → (∃ s0, D.Paused r s0 ∧ (∀ o, Obs D.step s o → Obs D.step s0 o)) →
      (k ≠ 0 ∨ D.Paused r s) → D.Paused r s' := by
    intro n
    induction n with
    | zero =>
      intro k s h h0 hk
      cases k with
      | zero =>
        simp only [Dataset.after, Option.some.injEq] at h
        subst h
        rcases hk with hk | hk
        · exact absurd rfl hk
        · exact hk
      | succ k => simp [Dataset.after] at h
    | succ n ih =>
      intro k s h h0 hk
      cases k with
      | zero =>
        simp only [Dataset.after, Option.some.injEq] at h
        subst h
        rcases hk with hk | hk
        · exact absurd rfl hk
        · exact hk
      | succ k =>
        obtain ⟨s0, h0, h1⟩ := h0
        simp only [Dataset.after] at h
        split at h
        · next hs =>
          have hp := Dataset.Paused.item h0 (h1 _ (.item hs))
          exact ih k _ h ⟨_, hp, fun o ho => ho⟩ (.inr hp)
        · next hs =>
          exact ih (k + 1) _ h ⟨s0, h0, fun o ho => h1 o (.skip hs ho)⟩ (.inl (by simp))
        · next hs =>
          have hp := Dataset.Paused.fin h0 (h1 _ (.fin hs))
          exact ih k _ h ⟨_, hp, fun o ho => ho⟩ (.inr hp)
        · cases h
  exact key n k s h ⟨s, hs, fun o ho => ho⟩ (.inr hs)

/-- Delivers `xs` in every pass; sample `i` has the restore key `(i,)`. The state is the position. -/
def listD (xs : List C) : Dataset Nat (Smp C) Nat :=
  { init := 0
    step := fun i => if h : i < xs.length then .yield ⟨xs[i], [.num i]⟩ (i + 1) else .stop 0
    save := id
    resume := id
    reset := fun _ => 0
    restoreSample := fun k =>
      match k with
      | [.num i] => (xs[i]?).map fun c => ⟨c, [.num i]⟩
      | _ => none
    hasSamples := !xs.isEmpty }

theorem listD_resumes (xs : List C) (r : Bool) : (listD xs).ResumesExactly r :=
  fun _ _ => Dataset.Equiv.refl _

theorem listD_resets (xs : List C) : (listD xs).ResetsToInit :=
  fun _ _ => Dataset.Equiv.refl _

theorem listD_restores (xs : List C) (r : Bool) : (listD xs).RestoresSamples r := by
  intro s a s' _ h
  generalize ho : Out.item a s' = o at h
  cases h with
  | item h =>
    cases ho
    simp only [listD] at h
    split at h
    · next hi =>
      cases h
      simp [listD, List.getElem?_eq_getElem hi]
    · cases h
  | fin h => cases ho
  | err h => cases ho
  | skip h => simp only [listD] at h; split at h <;> cases h

theorem listD_live (xs : List C) (r : Bool) : (listD xs).Live r := by
  intro s _
  by_cases h : s < xs.length
  · exact ⟨_, .item (by simp only [listD, dif_pos h]; rfl), by simp⟩
  · exact ⟨_, .fin (by simp only [listD, dif_neg h]; rfl), by simp⟩

theorem listD_items (xs : List C) (i : Nat) (hi : i ≤ xs.length) :
    (listD xs).Items i (((xs.zipIdx).drop i).map fun p => ⟨p.1, [.num p.2]⟩) xs.length := by
  induction h : xs.length - i generalizing i with
  | zero =>
    have : i = xs.length := by omega
    subst this
    rw [List.drop_eq_nil_of_le (by simp)]
    exact Dataset.Run.nil
  | succ n ih =>
    have hlt : i < xs.length := by omega
    have h1 := ih (i + 1) (by omega) (by omega)
    rw [List.drop_eq_getElem_cons (by simpa using hlt)]
    refine Dataset.Run.item (Obs.item ?_) h1
    simp [listD, hlt]

/-- One pass of `listD xs` is `xs`, with the positions as keys. -/
theorem listD_pass (xs : List C) :
    (listD xs).Pass 0 ((xs.zipIdx).map fun p => ⟨p.1, [.num p.2]⟩) 0 := by
  refine Dataset.pass_iff.2 ⟨xs.length, by simpa using listD_items xs 0 (by omega), .fin ?_⟩
  simp [listD]

/-- Delivers `f 0, f 1, ...` without end. -/
def streamD (f : Nat → C) : Dataset Nat (Smp C) Nat :=
  { init := 0
    step := fun i => .yield ⟨f i, [.num i]⟩ (i + 1)
    save := id
    resume := id
    reset := fun _ => 0
    restoreSample := fun k =>
      match k with
      | [.num i] => some ⟨f i, [.num i]⟩
      | _ => none
    hasSamples := true }

theorem streamD_resumes (f : Nat → C) (r : Bool) : (streamD f).ResumesExactly r :=
  fun _ _ => Dataset.Equiv.refl _

theorem streamD_restores (f : Nat → C) (r : Bool) : (streamD f).RestoresSamples r := by
  intro s a s' _ h
  generalize ho : Out.item a s' = o at h
  cases h with
  | item h => cases ho; simp only [streamD] at h; cases h; rfl
  | fin h => cases ho
  | err h => cases ho
  | skip h => simp only [streamD] at h; cases h

theorem streamD_never (f : Nat → C) (r : Bool) : (streamD f).NeverEnds r := by
  intro s s' _ h
  generalize ho : Out.fin s' = o at h
  cases h with
  | item h => cases ho
  | fin h => simp only [streamD] at h; cases h
  | err h => cases ho
  | skip h => simp only [streamD] at h; cases h

theorem streamD_live (f : Nat → C) (r : Bool) : (streamD f).Live r :=
  fun s _ => ⟨_, .item rfl, by simp⟩

end Verif.Stream
