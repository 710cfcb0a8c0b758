import Verif.Pipeline.ValLoader

/-!
# C79: validation loops that are left early, with a savable loader and worker processes

savable_loader.py:853-861: `SavableDataLoader.__iter__` keeps its iterator as long as it has not come to its end. So the loops up to one that comes to its end, put together, are one complete loop.
-/

namespace Verif.Pipeline

open Verif.Stream Verif.Wds Verif.Loader

variable {B C K ρ σ κ : Type}

/-! ### Model -/

/-- The iterator of the loader: the samples of the passes of the workers it runs over, the state of the processes, the states of the datasets at the end of these passes -/
structure Running (n : Nat) (D : Nat → AnyDs C) where
  xs : Nat → List (Smp C)
  s : Sys (Smp C)
  after : (w : Nat) → (D w).σ

/-- `for` loops over a `SavableDataLoader` with `n > 0` worker processes, which may be left at any time (when user code has control): the samples of each loop and whether it came to its end
(`StopIteration`); the iterator kept (`_persistent_iterator`; `none`: there is none, or it is `finished`); the states of the datasets when it was made. -/
inductive LeftLoops (n : Nat) (D : Nat → AnyDs C) : List (List (Smp C) × Bool) → Option (Running n D) → ((w : Nat) → (D w).σ) → Prop where
  | new : LeftLoops n D [] none (fun w => (D w).D.init)
  /-- savable_loader.py:855-860: a loop begins with a new iterator -/
  | first {l : List (List (Smp C) × Bool)} {st st' : (w : Nat) → (D w).σ} {xs : Nat → List (Smp C)} : LeftLoops n D l none st → (∀ w < n, (D w).D.Pass (st w) (xs w) (st' w)) →
      LeftLoops n D (l ++ [([], false)]) (some ⟨xs, start _ n, st'⟩) st
  /-- savable_loader.py:855, 861: the last loop was left, another one begins with the iterator kept -/
  | again {l : List (List (Smp C) × Bool)} {st : (w : Nat) → (D w).σ} {r : Running n D} : LeftLoops n D l (some r) st → r.s.phase = .idle → LeftLoops n D (l ++ [([], false)]) (some r) st
  /-- one of the processes does a step; what `next` returns goes to the current loop -/
  | step {l : List (List (Smp C) × Bool)} {x : List (Smp C)} {st : (w : Nat) → (D w).σ} {r : Running n D} {s' : Sys (Smp C)} : LeftLoops n D (l ++ [(x, false)]) (some r) st →
      Step n (answers r.xs) r.s s' → s'.phase ≠ .finished → LeftLoops n D (l ++ [(x ++ (s'.hist.drop r.s.hist.length).map Prod.snd, false)]) (some { r with s := s' }) st
  /-- savable_loader.py:840-842: the loop comes to its end -/
  | stop {l : List (List (Smp C) × Bool)} {x : List (Smp C)} {st : (w : Nat) → (D w).σ} {r : Running n D} {s' : Sys (Smp C)} : LeftLoops n D (l ++ [(x, false)]) (some r) st →
      Step n (answers r.xs) r.s s' → s'.phase = .finished → LeftLoops n D (l ++ [(x, true)]) none r.after

/-! ### Specification -/

/-- The loops, put together up to each one that came to its end; and what is left over -/
def together (l : List (List (Smp C) × Bool)) : List (List (Smp C)) × List (Smp C) :=
  l.foldl (fun p x => if x.2 then (p.1 ++ [p.2 ++ x.1], []) else (p.1, p.2 ++ x.1)) ([], [])

/-- Samples of complete rounds over the validation set -/
def complete (l : List (List (Smp C) × Bool)) : List (List (Smp C)) := (together l).1
/-- Samples since then -/
def leftOver (l : List (List (Smp C) × Bool)) : List (Smp C) := (together l).2

/-! ### Proofs -/

theorem together_snoc (l : List (List (Smp C) × Bool)) (x : List (Smp C) × Bool) :
    together (l ++ [x]) = if x.2 then (complete l ++ [leftOver l ++ x.1], []) else (complete l, leftOver l ++ x.1) := by
  rw [complete, leftOver, together, List.foldl_append]
  rfl

theorem complete_open (l : List (List (Smp C) × Bool)) (x : List (Smp C)) : complete (l ++ [(x, false)]) = complete l ∧ leftOver (l ++ [(x, false)]) = leftOver l ++ x := by
  rw [complete, leftOver, together_snoc]
  exact ⟨rfl, rfl⟩

theorem complete_end (l : List (List (Smp C) × Bool)) (x : List (Smp C)) : complete (l ++ [(x, true)]) = complete l ++ [leftOver l ++ x] ∧ leftOver (l ++ [(x, true)]) = [] := by
  constructor
  · rw [complete, together_snoc]; rfl
  · rw [leftOver, together_snoc]; rfl

theorem step_hist_append {n : Nat} {out : Nat → Nat → Option (Smp C)} {s s' : Sys (Smp C)} (h : Step n out s s') : s'.hist = s.hist ++ s'.hist.drop s.hist.length := by
  have : s.hist <+: s'.hist := by
    cases h with
    | «have» _ _ => rw [deliver, (tryPut_results (n := n) _).2.2.2]; exact List.prefix_append _ _
    | recvNow _ _ _ _ => rw [deliver, (tryPut_results (n := n) _).2.2.2]; exact List.prefix_append _ _
    | recvStop _ _ _ _ => rw [(tryPut_results (n := n) _).2.2.2]
    | _ => exact List.prefix_rfl
  obtain ⟨t, ht⟩ := this
  rw [← ht, List.drop_left]

theorem start_phase (α : Type) (n : Nat) : (start α n).phase = .idle ∧ (start α n).hist = [] := by
  have : ∀ k (s : Sys α), (tryPuts n k s).phase = s.phase ∧ (tryPuts n k s).hist = s.hist := by
    intro k
    induction k with
    | zero => intro s; exact ⟨rfl, rfl⟩
    | succ k ih => intro s; rw [tryPuts]; exact ⟨(ih _).1.trans (tryPut_results s).2.2.1, (ih _).2.trans (tryPut_results s).2.2.2⟩
  exact this _ _

/-- **C79, loops left early**: with a savable loader with worker processes, however the user leaves loops: the loops up to one that comes to its end, put together, are a complete loop in the sense of all other theorems of C79,
and the next loop after it begins a new round; the samples since the last end are those the current round has delivered so far. -/
theorem C79_left {n : Nat} (hn : 0 < n) {D : Nat → AnyDs C} {l : List (List (Smp C) × Bool)} {cur : Option (Running n D)} {st : (w : Nat) → (D w).σ} (h : LeftLoops n D l cur st) :
    Loops n D (complete l) st ∧
    (∀ r, cur = some r → (∀ w < n, (D w).D.Pass (st w) (r.xs w) (r.after w)) ∧ Reach n (answers r.xs) r.s ∧ leftOver l = r.s.hist.map Prod.snd) ∧
    (cur = none → leftOver l = []) := by
  induction h with
  | new => exact ⟨.new, (fun r h => by cases h), fun _ => rfl⟩
  | @first l st st' xs _ hp ih =>
    obtain ⟨h1, _, h3⟩ := ih
    rw [(complete_open l []).1, (complete_open l []).2, List.append_nil]
    refine ⟨h1, ?_, fun h => by cases h⟩
    intro r hr
    cases hr
    refine ⟨hp, .start, ?_⟩
    rw [h3 rfl, (start_phase _ n).2]
    rfl
  | @again l st r _ _ ih =>
    rw [(complete_open l []).1, (complete_open l []).2, List.append_nil]
    exact ⟨ih.1, ih.2.1, fun h => by cases h⟩
  | @step l x st r s' _ hs _ ih =>
    obtain ⟨h1, h2, _⟩ := ih
    rw [(complete_open l x).1, (complete_open l x).2] at *
    rw [(complete_open l _).1, (complete_open l _).2]
    refine ⟨h1, ?_, fun h => by cases h⟩
    intro r' hr'
    cases hr'
    obtain ⟨h3, h4, h5⟩ := h2 r rfl
    refine ⟨h3, .step h4 hs, ?_⟩
    rw [← List.append_assoc, h5, ← List.map_append, ← step_hist_append hs]
  | @stop l x st r s' _ hs hf ih =>
    obtain ⟨h1, h2, _⟩ := ih
    rw [(complete_open l x).1, (complete_open l x).2] at *
    rw [(complete_end l x).1, (complete_end l x).2]
    obtain ⟨h3, h4, h5⟩ := h2 r rfl
    refine ⟨?_, (fun r h => by cases h), fun _ => rfl⟩
    have hh : s'.hist = r.s.hist := by
      cases hs with
      | finish _ _ => rfl
      | «have» _ _ => rw [deliver, (tryPut_results (n := n) _).2.2.1] at hf; cases hf
      | recvNow _ _ _ _ => rw [deliver, (tryPut_results (n := n) _).2.2.1] at hf; cases hf
      | recvStop hb _ _ _ => rw [(tryPut_results (n := n) _).2.2.1] at hf; simp only at hf; rw [hb] at hf; cases hf
      | work _ _ _ => rfl
      | discard _ _ _ => rfl
      | call _ => cases hf
      | drop _ _ _ => rfl
      | recvLater _ _ _ _ _ => rfl
    rw [h5, ← hh]
    exact .workers hn h1 h3 (.step h4 hs) hf

theorem reach_path {α : Type} {n : Nat} {out : Nat → Nat → Option α} {s : Sys α} (h : Reach n out s) : ∃ (k : Nat) (f : Nat → Sys α), f 0 = start α n ∧ f k = s ∧ ∀ j < k, Step n out (f j) (f (j + 1)) := by
  induction h with
  | start => exact ⟨0, fun _ => start α n, rfl, rfl, fun j hj => by omega⟩
  | @step s s' _ hs ih =>
    obtain ⟨k, f, h0, hk, hf⟩ := ih
    refine ⟨k + 1, fun j => if j ≤ k then f j else s', ?_, ?_, ?_⟩
    · simp [h0]
    · simp
    · intro j hj
      by_cases h : j < k
      · have h1 : j ≤ k := by omega
        have h2 : j + 1 ≤ k := h
        simp only [h1, h2, if_true]
        exact hf j h
      · obtain rfl : j = k := by omega
        simp only [Nat.le_refl, if_true]
        rw [if_neg (by omega), hk]
        exact hs

/-- From every state, a loop over finitely many samples comes to its end -/
theorem ends_from {α : Type} {n : Nat} {out : Nat → Nat → Option α} (h : Ends n out) (P : Sys α → Prop) {s : Sys α} (hr : Reach n out s) (hP : P s) (hnf : s.phase ≠ .finished)
    (hstep : ∀ s s', P s → Step n out s s' → s'.phase ≠ .finished → P s') : ∃ t t', P t ∧ Step n out t t' ∧ t'.phase = .finished := by
  apply Classical.byContradiction
  intro hno
  have hstep' : ∀ t : {t // Reach n out t ∧ P t ∧ t.phase ≠ .finished}, ∃ t' : {t // Reach n out t ∧ P t ∧ t.phase ≠ .finished}, Step n out t.1 t'.1 := by
    rintro ⟨t, ht, hPt, hft⟩
    obtain ⟨t', h1⟩ := h.1 t ht hft
    have hf' : t'.phase ≠ .finished := fun hf => hno ⟨t, t', hPt, h1, hf⟩
    exact ⟨⟨t', .step ht h1, hstep t t' hPt h1 hf', hf'⟩, h1⟩
  choose g hg using hstep'
  let F : Nat → {t // Reach n out t ∧ P t ∧ t.phase ≠ .finished} := Nat.rec ⟨s, hr, hP, hnf⟩ fun _ t => g t
  obtain ⟨k, f, h0, hk, hf⟩ := reach_path hr
  refine h.2 ⟨fun j => if j < k then f j else (F (j - k)).1, ?_, ?_⟩
  · by_cases hk0 : 0 < k
    · simp [hk0, h0]
    · obtain rfl : k = 0 := by omega
      simp only [Nat.lt_irrefl, if_false]
      rw [← h0, hk]
      rfl
  · intro j
    by_cases hj : j + 1 < k
    · have h1 : j < k := by omega
      simp only [h1, hj, if_true]
      exact hf j h1
    · by_cases hj' : j < k
      · obtain rfl : k = j + 1 := by omega
        simp only [hj', if_true, Nat.lt_irrefl, if_false, Nat.sub_self]
        have := hf j hj'
        rw [hk] at this
        exact this
      · simp only [hj, hj', if_false]
        have : j + 1 - k = (j - k) + 1 := by omega
        rw [this]
        exact hg (F (j - k))

/-- **C79, the end can be reached**: a loop that is begun again whenever it was left comes to its end. -/
theorem C79_left_ends {n : Nat} (hn : 0 < n) {D : Nat → AnyDs C} {l : List (List (Smp C) × Bool)} {r : Running n D} {st : (w : Nat) → (D w).σ} (h : LeftLoops n D l (some r) st) (hi : r.s.phase = .idle) :
    ∃ x, LeftLoops n D (l ++ [(x, true)]) none r.after := by
  have h1 := LeftLoops.again h hi
  obtain ⟨_, h2, _⟩ := C79_left hn h1
  obtain ⟨_, hr, _⟩ := h2 r rfl
  obtain ⟨t, t', ⟨x, hx⟩, hs, hf⟩ := ends_from (C35_loop hn r.xs).1 (fun t => ∃ x, LeftLoops n D (l ++ [(x, false)]) (some { r with s := t }) st) hr ⟨[], h1⟩ (by rw [hi]; intro h; cases h)
    (fun s s' ⟨x, hx⟩ hs hf => ⟨_, LeftLoops.step (r := { r with s := s }) hx hs hf⟩)
  exact ⟨x, LeftLoops.stop (r := { r with s := t }) hx hs hf⟩

theorem left_continue {kind : Kind} {workers : Nat} (hn : 0 < workers) {A : Nat → Nat → AnyDs C} {r : Nat}
    (hc : ∀ ls st, Loops workers (rankDs kind workers A r) ls st → ∃ xs : Nat → List (Smp C), (∀ i < max 1 workers, ∃ s', (rankDs kind workers A r i).D.Pass (st i) (xs i) s'))
    {l : List (List (Smp C) × Bool)} {cur : Option (Running workers (rankDs kind workers A r))} {st : (w : Nat) → (rankDs kind workers A r w).σ}
    (h : LeftLoops workers (rankDs kind workers A r) l cur st) (hi : ∀ q, cur = some q → q.s.phase = .idle) :
    ∃ x st', LeftLoops workers (rankDs kind workers A r) (l ++ [(x, true)]) none st' := by
  cases cur with
  | some q => exact (C79_left_ends hn h (hi q rfl)).imp fun x hx => ⟨_, hx⟩
  | none =>
    obtain ⟨xs, hx⟩ := hc _ _ (C79_left hn h).1
    have : ∀ i, ∃ s', i < workers → (rankDs kind workers A r i).D.Pass (st i) (xs i) s' := by
      intro i
      by_cases hi : i < workers
      · obtain ⟨s', hs'⟩ := hx i (by omega)
        exact ⟨s', fun _ => hs'⟩
      · exact ⟨st i, fun h => absurd h hi⟩
    choose st' hst' using this
    have h1 := LeftLoops.first h hst'
    obtain ⟨t, t', ⟨x, hx⟩, hs, hf⟩ := ends_from (C35_loop hn xs).1 (fun t => ∃ x, LeftLoops workers (rankDs kind workers A r) (l ++ [(x, false)]) (some ⟨xs, t, st'⟩) st) .start ⟨[], h1⟩
      (by rw [(start_phase _ workers).1]; intro h; cases h) (fun s s' ⟨x, hx⟩ hs hf => ⟨_, LeftLoops.step hx hs hf⟩)
    exact ⟨x, st', LeftLoops.stop (r := ⟨xs, t, st'⟩) hx hs hf⟩

/-- **C79, exactly once, with loops left early**: over all ranks, the loops up to the `k`-th end (from the one before), put together, contain each sample of the validation datasets exactly once; and a loop that is begun whenever user code has control
and not left comes to its end.
Missing: as in `C79_val_loader_exactly_once_partial`; `get_loader` (false, `C80_violated_workers`), and loaders without worker processes (C80). -/
theorem C79_left_exactly_once_partial [DecidableEq K] (R : Nat → Nat → Rngs ρ) (E : Encoder C K) (ds : List (Disk B C)) (o : ValOpts) (world workers : Nat)
    (hworld : 0 < world) (hworkers : 0 < workers) (hne : ds ≠ []) (hds : ∀ d ∈ ds, d.Val ∧ d.maxSamples = none ∧ Total d.load) (hE : E.Safe o.packing) (hT : E.Total) (hb : 0 < o.batchSize)
    (hdl : o.dropLast = false) (hl : o.limit = none) (cfg : Nat → Loader.Cfg) :
    ∃ A : Nat → Nat → AnyDs C,
      (∀ r < world, ∀ i < max 1 workers, valDs (R r i) E ds o ⟨r, world, workers⟩ i = .ok (A r i)) ∧
      (∀ r < world, ∀ l cur st, LeftLoops workers (rankDs (.savable cfg) workers A r) l cur st → (∀ q, cur = some q → q.s.phase = .idle) →
        ∃ x st', LeftLoops workers (rankDs (.savable cfg) workers A r) (l ++ [(x, true)]) none st') ∧
      ∀ (l : Nat → List (List (Smp C) × Bool)) (k : Nat), (∀ r < world, k < (complete (l r)).length ∧ ∃ cur st, LeftLoops workers (rankDs (.savable cfg) workers A r) (l r) cur st) →
        ((List.range world).flatMap fun r => leavesOf ((complete (l r)).getD k [])).Perm (ds.flatMap Disk.samples) := by
  obtain ⟨A, h1, h2, h3⟩ := C79_val_loader_exactly_once_partial R E ds o world workers hworld hne hds hE hT hb hdl hl (.savable cfg)
  refine ⟨A, h1, fun r hr l cur st h hi => left_continue hworkers (fun ls st h => (h2 r hr ls st h).imp fun xs h => h.1) h hi, fun l k h => h3 (fun r => complete (l r)) k fun r hr => ?_⟩
  obtain ⟨hk, cur, st, hL⟩ := h r hr
  exact ⟨hk, st, (C79_left hworkers hL).1⟩

/-- **C79, at most once, with loops left early**. Missing: as in `C79_val_loader_at_most_once_partial`. -/
theorem C79_left_at_most_once_partial [DecidableEq K] (R : Nat → Nat → Rngs ρ) (E : Encoder C K) (ds : List (Disk B C)) (o : ValOpts) (world workers : Nat)
    (hworld : 0 < world) (hworkers : 0 < workers) (hne : ds ≠ []) (hds : ∀ d ∈ ds, d.Val) (hE : E.Safe o.packing) (hb : 0 < o.batchSize) (cfg : Nat → Loader.Cfg) :
    ∃ A : Nat → Nat → AnyDs C,
      (∀ r < world, ∀ i < max 1 workers, valDs (R r i) E ds o ⟨r, world, workers⟩ i = .ok (A r i)) ∧
      (∀ r < world, ∀ l cur st, LeftLoops workers (rankDs (.savable cfg) workers A r) l cur st → (∀ q, cur = some q → q.s.phase = .idle) →
        ∃ x st', LeftLoops workers (rankDs (.savable cfg) workers A r) (l ++ [(x, true)]) none st') ∧
      ∀ (l : Nat → List (List (Smp C) × Bool)) (k : Nat), (∀ r < world, k < (complete (l r)).length ∧ ∃ cur st, LeftLoops workers (rankDs (.savable cfg) workers A r) (l r) cur st) →
        ((List.range world).flatMap fun r => leavesOf ((complete (l r)).getD k [])).Subperm (ds.flatMap Disk.samples) := by
  obtain ⟨A, h1, h2, h3⟩ := C79_val_loader_at_most_once_partial R E ds o world workers hworld hne hds hE hb (.savable cfg)
  refine ⟨A, h1, fun r hr l cur st h hi => left_continue hworkers (fun ls st h => (h2 r hr ls st h).imp fun xs h => h.1) h hi, fun l k h => h3 (fun r => complete (l r)) k fun r hr => ?_⟩
  obtain ⟨hk, cur, st, hL⟩ := h r hr
  exact ⟨hk, st, (C79_left hworkers hL).1⟩

example := C79_left_exactly_once_partial (fun _ _ => exR) exPack [exDisk "a" 10 4, exDisk "b" 100 7] ⟨2, false, some 4, none, true⟩ 2 2 (by decide) (by decide) (by simp)
  (by
    intro d hd
    simp only [List.mem_cons, List.not_mem_nil, or_false] at hd
    rcases hd with rfl | rfl
    · exact ⟨exDisk_val _ _ _ (by decide) (by decide +kernel), rfl, fun _ _ => ⟨_, rfl⟩⟩
    · exact ⟨exDisk_val _ _ _ (by decide) (by decide +kernel), rfl, fun _ _ => ⟨_, rfl⟩⟩) exPack_safe exPack_total (by decide) rfl rfl (fun _ => ⟨4, 2, fun _ => true⟩)

end Verif.Pipeline
