import Verif.Loader.TorchProps

/-! # C35: a complete iteration over workers with finitely many samples -/

namespace Verif.Loader

variable {α : Type} {n : Nat} {out : Nat → Nat → Option α}

/-! ## Specification -/

/-- A `for` loop over the loader comes to its end, whatever the schedule is: as long as it has not, some process can go on, and there is
no infinite execution. -/
def Ends (n : Nat) (out : Nat → Nat → Option α) : Prop :=
  (∀ s, Reach n out s → s.phase ≠ .finished → ∃ s', Step n out s s') ∧
  ¬ ∃ f : Nat → Sys α, f 0 = start α n ∧ ∀ k, Step n out (f k) (f (k + 1))

/-- The answers of a worker whose samples in this pass are the list `xs w`. -/
def answers (xs : Nat → List α) (w k : Nat) : Option α := (xs w)[k]?

/-! ## Proofs -/

theorem answers_sticky (xs : Nat → List α) : Sticky (answers xs) := by
  intro w k h
  simp only [answers, List.getElem?_eq_none_iff] at h ⊢
  omega

theorem Step.hist_le {s s' : Sys α} (h : Step n out s s') : s.hist.length ≤ s'.hist.length := by
  cases h with
  | «have» _ _ => rw [deliver, (tryPut_results (n := n) (α := α) _).2.2.2]; simp
  | recvNow _ _ _ _ => rw [deliver, (tryPut_results (n := n) (α := α) _).2.2.2]; simp
  | recvStop _ _ _ _ => rw [(tryPut_results (n := n) (α := α) _).2.2.2]; exact Nat.le_refl _
  | _ => exact Nat.le_refl _

def phaseRank : Phase → Nat
  | .idle => 2
  | .busy => 1
  | .finished => 0

/-- Every step delivers a sample, or goes on in the sequence of phases, or makes the work left smaller. -/
theorem Step.decreases (hn : 0 < n) (hs : Sticky out) {s s' : Sys α} (hr : Reach n out s) (h : Step n out s s') :
    s.hist.length < s'.hist.length ∨ (s.hist.length = s'.hist.length ∧
      (phaseRank s'.phase < phaseRank s.phase ∨ (phaseRank s'.phase = phaseRank s.phase ∧ Loader.work n s' < Loader.work n s))) := by
  have hl := h.hist_le
  by_cases hb : s.phase = .busy ∧ s'.phase = .busy
  · have := work_decreases hn hs hr h hb.1 hb.2
    rw [hb.1, hb.2]
    omega
  cases h with
  | @work w q l hw hq he =>
    refine .inr ⟨rfl, .inr ⟨rfl, ?_⟩⟩
    have := sum_fset (fun p : WProc => p.queue.length) s.procs w
      ⟨l, (s.procs w).made + 1, (out w (s.procs w).made).isNone⟩ n
    rw [if_pos hw, if_pos hw, hq] at this
    simp only [List.length_cons] at this
    simp only [Loader.work, qsum, List.length_append, List.length_singleton]
    omega
  | @discard w q l hw hq he =>
    refine .inr ⟨rfl, .inr ⟨rfl, ?_⟩⟩
    have := sum_fset (fun p : WProc => p.queue.length) s.procs w { s.procs w with queue := l } n
    rw [if_pos hw, if_pos hw, hq] at this
    simp only [List.length_cons] at this
    simp only [Loader.work, qsum]
    omega
  | call hp => exact .inr ⟨rfl, .inl (by rw [hp]; simp [phaseRank])⟩
  | drop hp hpe ha => exact absurd ⟨hp, hp⟩ hb
  | finish hp hpe => exact .inr ⟨rfl, .inl (by rw [hp]; simp [phaseRank])⟩
  | «have» hp hpe => left; rw [deliver, (tryPut_results (n := n) (α := α) _).2.2.2]; simp
  | recvStop hp _ _ _ => exact absurd ⟨hp, (tryPut_results (n := n) (α := α) _).2.2.1.trans hp⟩ hb
  | recvNow hp _ _ _ => left; rw [deliver, (tryPut_results (n := n) (α := α) _).2.2.2]; simp
  | recvLater hp _ _ _ _ => exact absurd ⟨hp, hp⟩ hb

theorem ofWorker_rounds {w : Nat} (hw : w < n) (K : Nat) :
    ofWorker w (rounds n out K) = (List.range K).filterMap fun i => (out w i).map (w, ·) := by
  obtain ⟨c, h1, h2⟩ := ofWorker_upto (out := out) hw (K * n)
  rw [upto_rounds] at h2
  have hn : 0 < n := by omega
  have hc : c = K := by
    rcases Nat.lt_trichotomy c K with h | h | h
    · have h3 := h1 c
      have h4 : (c + 1) * n ≤ K * n := Nat.mul_le_mul_right _ h
      rw [Nat.succ_mul] at h4
      omega
    · exact h
    · have := (h1 K).1 h
      omega
  rw [h2, hc]

theorem range_filterMap_list (l : List α) {β : Type} (f : α → β) {K : Nat} (h : l.length ≤ K) :
    ((List.range K).filterMap fun i => l[i]?.map f) = l.map f := by
  induction l generalizing K with
  | nil => simp
  | cons a l ih =>
    cases K with
    | zero => simp at h
    | succ K =>
      rw [List.range_succ_eq_map, List.filterMap_cons]
      simp only [List.getElem?_cons_zero, Option.map_some, List.filterMap_map, Function.comp_def, List.getElem?_cons_succ, List.map_cons]
      rw [ih (by simpa using h)]

theorem mem_rounds {x : Nat × α} {K : Nat} (h : x ∈ rounds n out K) : x.1 < n := by
  simp only [rounds, round, List.mem_flatMap, List.mem_filterMap, List.mem_range] at h
  obtain ⟨_, _, w, hw, h⟩ := h
  cases ho : out w _ with
  | none => rw [ho] at h; cases h
  | some a => rw [ho] at h; cases h; exact hw

theorem perm_ofWorker (n : Nat) (l : List (Nat × α)) (h : ∀ x ∈ l, x.1 < n) : l.Perm ((List.range n).flatMap fun w => ofWorker w l) := by
  induction n generalizing l with
  | zero =>
    cases l with
    | nil => simp
    | cons a l => have := h a (by simp); omega
  | succ n ih =>
    rw [List.range_succ, List.flatMap_append]
    simp only [List.flatMap_cons, List.flatMap_nil, List.append_nil]
    have h1 : l.Perm (l.filter (fun x => decide (x.1 < n)) ++ l.filter (fun x => decide (x.1 = n))) := by
      have h2 := (List.filter_append_perm (fun x : Nat × α => decide (x.1 < n)) l).symm
      have h3 : l.filter (fun x => !decide (x.1 < n)) = l.filter (fun x => decide (x.1 = n)) := by
        apply List.filter_congr
        intro x hx
        have := h x hx
        by_cases h5 : x.1 < n
        · have : x.1 ≠ n := by omega
          simp [h5, this]
        · have : x.1 = n := by omega
          simp [this]
      rwa [h3] at h2
    refine h1.trans (List.Perm.append ?_ (by unfold ofWorker; rfl))
    refine (ih _ fun x hx => by simpa using (List.mem_filter.1 hx).2).trans ?_
    refine List.Perm.flatMap_left _ fun w hw => ?_
    have hw := List.mem_range.1 hw
    unfold ofWorker
    rw [List.filter_filter]
    apply List.Perm.of_eq
    apply List.filter_congr
    intro x _
    by_cases h : x.1 = w
    · have : x.1 < n := by omega
      simp [h, this, hw]
    · simp [h]

/-! ## Theorems -/

/-- As long as the loop has not ended, some process can go on. -/
theorem C35_no_deadlock (hn : 0 < n) (hs : Sticky out) {s : Sys α} (h : Reach n out s) (hf : s.phase ≠ .finished) :
    ∃ s', Step n out s s' := by
  cases hp : s.phase with
  | idle => exact ⟨_, .call hp⟩
  | busy => exact C35_progress hn hs h hp
  | finished => exact absurd hp hf

/-- If the workers have finitely many samples, there is no infinite execution: the loop comes to its end. -/
theorem C35_terminates (hn : 0 < n) (hs : Sticky out) {K : Nat} (hK : ∀ w < n, out w K = none) : Ends n out := by
  refine ⟨fun s h hf => C35_no_deadlock hn hs h hf, ?_⟩
  rintro ⟨f, h0, hf⟩
  have hr : ∀ k, Reach n out (f k) := by
    intro k
    induction k with
    | zero => rw [h0]; exact .start
    | succ k ih => exact .step ih (hf k)
  have hmax : ∀ k, (f k).hist.length ≤ (rounds n out K).length := by
    intro k
    obtain ⟨K', h1⟩ := C35_round_robin hn hs (hr k)
    refine Nat.le_trans h1.length_le ?_
    have hlong : ∀ J, rounds n out (K + J) = rounds n out K := by
      intro J
      rw [← upto_rounds, ← upto_rounds]
      refine upto_stable (fun q hq => ?_) (Nat.mul_le_mul_right _ (by omega))
      exact hs.le (hK _ (Nat.mod_lt q hn)) ((Nat.le_div_iff_mul_le hn).2 hq)
    rcases Nat.le_total K K' with h | h
    · obtain ⟨J, rfl⟩ := Nat.exists_eq_add_of_le h
      exact Nat.le_of_eq (by rw [hlong])
    · rw [← upto_rounds, ← upto_rounds]
      exact (upto_le (Nat.mul_le_mul_right _ h)).length_le
  -- a descending sequence
  let M := (rounds n out K).length
  let μ : Nat → Nat × Nat × Nat := fun k => (M - (f k).hist.length, phaseRank (f k).phase, Loader.work n (f k))
  have hlt : ∀ k, Prod.Lex (· < ·) (Prod.Lex (· < ·) (· < ·)) (μ (k + 1)) (μ k) := by
    intro k
    have h1 := hmax (k + 1)
    rcases (hf k).decreases hn hs (hr k) with h | ⟨h, h2 | ⟨h2, h3⟩⟩
    · exact .left _ _ (by simp only [M]; omega)
    · simp only [μ, h]
      exact .right _ (.left _ _ h2)
    · simp only [μ, h, h2]
      exact .right _ (.right _ h3)
  have hwf : WellFounded (Prod.Lex (· < ·) (Prod.Lex (· < ·) (· < ·)) : Nat × Nat × Nat → Nat × Nat × Nat → Prop) :=
    (Prod.lex ⟨_, Nat.lt_wfRel.wf⟩ (Prod.lex ⟨_, Nat.lt_wfRel.wf⟩ ⟨_, Nat.lt_wfRel.wf⟩)).wf
  have : ∀ p, ∀ k, μ k ≠ p := by
    intro p
    induction p using hwf.induction with
    | _ p ih => rintro k rfl; exact ih _ (hlt k) (k + 1) rfl
  exact this _ 0 rfl

/-- Such a loop has a complete execution. -/
theorem Ends.finished (h : Ends n out) : ∃ s, Reach n out s ∧ s.phase = .finished := by
  apply Classical.byContradiction
  intro hno
  have hstep : ∀ s : {s // Reach n out s}, ∃ s' : {s // Reach n out s}, Step n out s.1 s'.1 := by
    rintro ⟨s, hs⟩
    obtain ⟨s', h1⟩ := h.1 s hs (fun hf => hno ⟨s, hs, hf⟩)
    exact ⟨⟨s', .step hs h1⟩, h1⟩
  choose g hg using hstep
  let f : Nat → {s // Reach n out s} := Nat.rec ⟨start α n, .start⟩ fun _ s => g s
  exact h.2 ⟨fun k => (f k).1, rfl, fun k => hg (f k)⟩

/-- A complete loop over the loader delivers all samples of every worker, in the order of the worker, and nothing else; in turns. -/
theorem C35_loop (hn : 0 < n) (xs : Nat → List α) : Ends n (answers xs) ∧
    ∀ s, Reach n (answers xs) s → s.phase = .finished →
      (∀ w < n, ofWorker w s.hist = (xs w).map (w, ·)) ∧
      (s.hist.map (·.2)).Perm ((List.range n).flatMap xs) ∧
      ∃ K, s.hist = rounds n (answers xs) K := by
  have hs := answers_sticky xs
  constructor
  · refine C35_terminates hn hs (K := ((List.range n).map fun w => (xs w).length).sum) fun w hw => ?_
    simp only [answers, List.getElem?_eq_none_iff]
    have key : ∀ (l : List Nat) (a : Nat), a ∈ l → a ≤ l.sum := by
      intro l
      induction l with
      | nil => intro a h; cases h
      | cons b l ih =>
        intro a h
        rw [List.sum_cons]
        rcases List.mem_cons.1 h with rfl | h
        · omega
        · have := ih a h; omega
    exact key _ _ (List.mem_map.2 ⟨w, List.mem_range.2 hw, rfl⟩)
  · intro s h hf
    obtain ⟨K, h1, h2⟩ := C35_complete hn hs h hf
    have h3 : ∀ w < n, ofWorker w s.hist = (xs w).map (w, ·) := by
      intro w hw
      rw [h2, ofWorker_rounds hw]
      exact range_filterMap_list (xs w) _ (by simpa [answers] using h1 w hw)
    refine ⟨h3, ?_, K, h2⟩
    refine ((perm_ofWorker n s.hist fun x hx => by rw [h2] at hx; exact mem_rounds hx).map _).trans ?_
    rw [List.map_flatMap]
    apply List.Perm.of_eq
    refine List.flatMap_congr fun w hw => ?_
    rw [h3 w (List.mem_range.1 hw), List.map_map]
    simp [Function.comp_def]

end Verif.Loader
