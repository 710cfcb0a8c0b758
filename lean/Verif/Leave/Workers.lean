import Verif.Loader.TorchProps

/-!
# C80: leaving a loop over a loader with worker processes

`SavableDataLoader` with worker processes keeps its iterator when a loop is left (savable_loader.py:853-861, `_persistent_iterator`): the next loop goes on with it, and nothing is lost.

`BasicDataLoader` (savable_loader.py:1100-1171, `get_loader`) begins a new iteration of the torch loader: `DataLoader.__iter__` calls `_reset` on the persistent iterator, which puts a `_ResumeIteration` behind the
tasks in the index queue of each worker, and throws away all results until each worker has confirmed (torch/utils/data/dataloader.py, `_reset`). The workers work on the tasks in their queues first.
-/

namespace Verif.Loader

variable {α : Type} {n : Nat}

/-- Loops over a `BasicDataLoader` with `n` worker processes, all left early: worker `w` has the samples `f w 0`, `f w 1`, ... (it does not mind that its iterator is dropped, see `C80_train_partial`). The samples delivered in each of the loops, and how many samples
each worker has taken from its dataset afterwards. -/
inductive BasicLoops (n : Nat) (f : Nat → Nat → α) : List (List (Nat × α)) → (Nat → Nat) → Prop where
  | new : BasicLoops n f [] (fun _ => 0)
  | loop {ls : List (List (Nat × α))} {pos : Nat → Nat} {s : Sys α} : BasicLoops n f ls pos → Reach n (fun w k => some (f w (pos w + k))) s → s.phase = .idle →
      BasicLoops n f (ls ++ [s.hist]) (fun w => pos w + (s.procs w).made + (s.procs w).queue.length)

/-! ### Proofs -/

/-- All tasks given to the workers so far. -/
def taken (n : Nat) (procs : Nat → WProc) : Nat := ((List.range n).map fun w => (procs w).made + (procs w).queue.length).sum

/-- Without ends: `k` tasks are outstanding. -/
structure Full (n k : Nat) (s : Sys α) : Prop where
  active : ∀ w, s.active w = true
  ended : ∀ w, (s.procs w).ended = false
  results : ∀ r ∈ s.results, r.2 ≠ none
  open_ : s.phase ≠ .finished
  pending : s.pending.length = k
  count : taken n s.procs = s.hist.length + k

theorem Full.tryPut {k : Nat} {s : Sys α} (hn : 0 < n) (h : Full n k s) : Full n (k + 1) (tryPut n s) := by
  rcases tryPut_cases (n := n) s with ⟨hc, _⟩ | ⟨j, _, _, _, he⟩
  · have := hc 0 hn
    rw [h.active] at this
    cases this
  · rw [he]
    refine ⟨h.active, ?_, h.results, h.open_, by simp [h.pending], ?_⟩
    · intro w
      by_cases hw : w = (s.cyc + j) % n
      · subst hw
        simpa [fset_same] using h.ended _
      · simpa [fset_ne _ _ hw] using h.ended _
    · have := sum_fset (fun p : WProc => p.made + p.queue.length) s.procs ((s.cyc + j) % n)
        { s.procs ((s.cyc + j) % n) with queue := (s.procs ((s.cyc + j) % n)).queue ++ [s.cyc + j] } n
      rw [if_pos (Nat.mod_lt _ hn), if_pos (Nat.mod_lt _ hn)] at this
      have h2 := h.count
      simp only [List.length_append, List.length_singleton] at this
      simp only [taken] at this h2 ⊢
      omega

theorem Full.tryPuts (hn : 0 < n) (m : Nat) {k : Nat} {s : Sys α} (h : Full n k s) : Full n (k + m) (tryPuts n m s) := by
  induction m generalizing k s with
  | zero => exact h
  | succ m ih =>
    have := ih (h.tryPut hn)
    rwa [Nat.add_assoc, Nat.add_comm 1 m] at this

theorem Full.start (hn : 0 < n) : Full n (2 * n) (start α n) := by
  have : Full n 0 (blank α) := ⟨fun _ => rfl, fun _ => rfl, (by intro r h; cases h), (by intro h; cases h), rfl, by simp [taken, blank]⟩
  have h := this.tryPuts hn (2 * n)
  rw [Nat.zero_add] at h
  exact h

theorem Full.deliver {k : Nat} {s : Sys α} (hn : 0 < n) (h : Full n (k + 1) s) {q : Nat} {a : α} {t : Task α} {rest : List (Task α)} (hp : s.pending = t :: rest) :
    Full n (k + 1) (deliver n s q a rest) := by
  unfold Loader.deliver
  refine Full.tryPut hn ⟨h.active, h.ended, h.results, (by intro h; cases h), ?_, ?_⟩
  · have := h.pending
    rw [hp] at this
    simpa using this
  · have := h.count
    simp only [List.length_append, List.length_singleton]
    omega

theorem Full.step {g : Nat → Nat → α} {k : Nat} {s s' : Sys α} (hn : 0 < n) (h : Full n (k + 1) s) (hs : Step n (fun w k => some (g w k)) s s') : Full n (k + 1) s' := by
  cases hs with
  | @work w q l hw hq he =>
    refine ⟨h.active, ?_, ?_, h.open_, h.pending, ?_⟩
    · intro v
      by_cases hv : v = w
      · subst hv; simp [fset_same]
      · simpa [fset_ne _ _ hv] using h.ended v
    · intro r hr
      rcases List.mem_append.1 hr with hr | hr
      · exact h.results r hr
      · simp only [List.mem_singleton] at hr
        subst hr
        simp
    · have := sum_fset (fun p : WProc => p.made + p.queue.length) s.procs w ⟨l, (s.procs w).made + 1, (some (g w (s.procs w).made)).isNone⟩ n
      rw [if_pos hw, if_pos hw, hq] at this
      simp only [List.length_cons] at this
      have h2 := h.count
      simp only [taken] at this h2 ⊢
      omega
  | @discard w q l hw hq he => rw [h.ended w] at he; cases he
  | call _ => exact ⟨h.active, h.ended, h.results, (by intro h; cases h), h.pending, h.count⟩
  | drop _ _ ha => rw [h.active] at ha; cases ha
  | finish _ hp => have := h.pending; rw [hp] at this; simp at this
  | «have» _ hp => exact h.deliver hn hp
  | recvStop _ _ _ hr => exact absurd rfl (h.results _ (by rw [hr]; exact List.mem_cons_self))
  | @recvNow q a rest res _ hp _ hr =>
    have : Full n (k + 1) { s with results := res } := ⟨h.active, h.ended, fun r hr' => h.results r (by rw [hr]; exact List.mem_cons_of_mem _ hr'), h.open_, h.pending, h.count⟩
    exact this.deliver hn hp
  | @recvLater q r a rest res _ hp _ hr _ =>
    exact ⟨h.active, h.ended, fun r' hr' => h.results r' (by rw [hr]; exact List.mem_cons_of_mem _ hr'), h.open_, by simp [storeData, h.pending], h.count⟩

theorem Full.reach {g : Nat → Nat → α} {s : Sys α} (hn : 0 < n) (h : Reach n (fun w k => some (g w k)) s) : Full n (2 * n) s := by
  induction h with
  | start => exact Full.start hn
  | step _ hs ih =>
    obtain ⟨k, hk⟩ : ∃ k, 2 * n = k + 1 := ⟨2 * n - 1, by omega⟩
    rw [hk] at ih ⊢
    exact ih.step hn hs

/-- **C80 is violated** by `get_loader` with `n` worker processes: each loop over an endless dataset that is left loses exactly `2 n` samples: the workers have taken as many from their datasets as have been delivered, and `2 n` more
for each loop. (In every history of loops, under every schedule of the processes.) -/
theorem C80_violated_workers (hn : 0 < n) (f : Nat → Nat → α) (ls : List (List (Nat × α))) (pos : Nat → Nat) (h : BasicLoops n f ls pos) :
    ((List.range n).map pos).sum = (ls.map List.length).sum + 2 * n * ls.length := by
  induction h with
  | new => simp
  | @loop ls pos s _ hr _ ih =>
    have h1 := (Full.reach hn hr).count
    have h2 : ((List.range n).map fun w => pos w + (s.procs w).made + (s.procs w).queue.length).sum = ((List.range n).map pos).sum + taken n s.procs := by
      unfold taken
      generalize List.range n = l
      induction l with
      | nil => rfl
      | cons a l ih => simp only [List.map_cons, List.sum_cons, ih]; omega
    rw [h2, ih, h1]
    simp only [List.map_append, List.map_cons, List.map_nil, List.sum_append, List.sum_cons, List.sum_nil, List.length_append, List.length_singleton, Nat.mul_add]
    omega

/-- Where each of the loops begins: with sample number `pos w` of worker `w`, in turns. -/
theorem C80_workers_loop (hn : 0 < n) (f : Nat → Nat → α) (ls : List (List (Nat × α))) (pos : Nat → Nat) (s : Sys α) (_ : BasicLoops n f ls pos)
    (hr : Reach n (fun w k => some (f w (pos w + k))) s) : ∃ K, s.hist <+: rounds n (fun w k => some (f w (pos w + k))) K :=
  C35_round_robin hn (by intro w k h; cases h) hr

/-- Two workers; a loop is left after three samples, and another one after one sample: of the samples 0, 1, 2, ... of worker 0, sample 2, 3 are lost, the second loop begins with sample 4. -/
def exF : Nat → Nat → Nat := fun w k => 100 * w + k

/-- The first loop, -/
def exS1 : Sys Nat := ticks 2 (fun w k => some (exF w (0 + k))) 14
/-- the positions after it, -/
def exPos (w : Nat) : Nat := 0 + (exS1.procs w).made + (exS1.procs w).queue.length
/-- the second loop. -/
def exS2 : Sys Nat := ticks 2 (fun w k => some (exF w (exPos w + k))) 8

example : ∃ ls pos, BasicLoops 2 exF ls pos ∧ ls = [[(0, 0), (1, 100), (0, 1)], [(0, 4)]] ∧ pos 0 + pos 1 = 12 :=
  ⟨[] ++ [exS1.hist] ++ [exS2.hist], _, .loop (s := exS2) (.loop (s := exS1) .new (ticks_reach 14) (by decide +kernel)) (ticks_reach 8) (by decide +kernel),
    by decide +kernel, by decide +kernel⟩

end Verif.Loader
