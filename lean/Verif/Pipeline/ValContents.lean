import Verif.Pipeline.ValLoader
import Verif.Pipeline.Content

/-!
# What the validation loader delivers

`C68` (the contents of one worker, generator functions included) and `C79` (worker processes and loops) composed.
-/

namespace Verif.Pipeline

open Verif.Stream Verif.Wds Verif.Loader

variable {B C K ρ : Type}

/-! ### Specification -/

/-- The lists `xs 0`, ..., `xs (n-1)` in turns: first the first elements of all of them, in order, then the second ones (of those that have one), and so on, for `N` rounds. -/
def inTurns {α : Type} (n : Nat) (xs : Nat → List α) (N : Nat) : List α :=
  (List.range N).flatMap fun j => (List.range n).filterMap fun i => (xs i)[j]?

/-! ### Proofs -/

theorem rounds_inTurns {α : Type} (n : Nat) (xs : Nat → List α) (N : Nat) : (rounds n (answers xs) N).map Prod.snd = inTurns n xs N := by
  unfold rounds inTurns Loader.round
  simp only [List.map_flatMap, List.map_filterMap]
  refine List.flatMap_congr fun j _ => ?_
  congr 1
  funext i
  simp only [answers]
  cases (xs i)[j]? <;> rfl

theorem inTurns_more {α : Type} {n : Nat} {xs : Nat → List α} {N : Nat} (h : ∀ i < n, (xs i).length ≤ N) (m : Nat) : inTurns n xs (N + m) = inTurns n xs N := by
  induction m with
  | zero => rfl
  | succ m ih =>
    rw [← Nat.add_assoc]
    unfold inTurns at ih ⊢
    rw [List.range_succ, List.flatMap_append, ih, List.flatMap_cons, List.flatMap_nil, List.append_nil, List.filterMap_eq_nil_iff.2, List.append_nil]
    intro i hi
    rw [List.getElem?_eq_none_iff]
    have := h i (List.mem_range.1 hi)
    omega

theorem inTurns_eq {α : Type} {n : Nat} {xs : Nat → List α} {N N' : Nat} (h : ∀ i < n, (xs i).length ≤ N) (h' : ∀ i < n, (xs i).length ≤ N') :
    inTurns n xs N = inTurns n xs N' := by
  rcases Nat.le_total N N' with hle | hle
  · obtain ⟨m, rfl⟩ := Nat.exists_eq_add_of_le hle
    exact (inTurns_more h m).symm
  · obtain ⟨m, rfl⟩ := Nat.exists_eq_add_of_le hle
    exact inTurns_more h' m

theorem inTurns_one {α : Type} (xs : Nat → List α) (N : Nat) : inTurns 1 xs N = (xs 0).take N := by
  unfold inTurns
  induction N with
  | zero => rfl
  | succ N ih =>
    rw [List.range_succ (n := N), List.flatMap_append, ih, List.take_succ]
    congr 1
    cases h : (xs 0)[N]? <;> simp [List.range_succ, h]

/-! ### Theorems -/

/-- **C79, contents.** The validation loader (`get_loader` or `get_savable_loader`), on any rank and with any number of worker processes (or none), generator functions, skipping functions, packing, grouping, limit and
dropped last batches included, for functions that depend on the sample only (`E.Is F`, `Computes`): the datasets can be built, a loop over the loader can always be started and comes to its end, and every loop, the first
like all later ones, delivers the same contents, in the same order, whatever the schedule is: those of the workers in turns, where worker `i` delivers what `F` makes, as in C68, from the samples of its share.
Missing: functions that depend on the sample index, loops that are left early. -/
theorem C79_val_loader_contents_partial [DecidableEq K] (R : Nat → Rngs ρ) (E : Encoder C K) (ds : List (Disk B C)) (o : ValOpts) (w : Sharder.WorkerConfig)
    (hne : ds ≠ []) (hds : ∀ d ∈ ds, d.Val) (hr : w.rank < w.worldSize) (hb : 0 < o.batchSize)
    (load : Disk B C → Raw B → Option C) (hload : ∀ d ∈ ds, Computes d.load (load d)) (F : Fns C K) (hE : E.Is F (some o.batchSize) o.packing) :
    ∃ (A : Nat → Nat → AnyDs C) (made : Nat → List C) (N : Nat),
      (∀ i < max 1 w.numWorkers, valDs (R i) E ds o w i = .ok (A w.rank i) ∧ ∃ packs batches,
        Packed F o.packing (((ds.flatMap fun d => (d.raws w i).filterMap (load d)).flatMap F.cook).flatMap F.encode) packs ∧
        Batched F E.group.isSome o.batchSize o.dropLast packs batches ∧
        made i = o.cut w.numWorkers i (if E.group.isSome then batches.filterMap F.batch else (batches.filterMap F.batch).flatMap F.encodeBatch)) ∧
      (∀ i < max 1 w.numWorkers, (made i).length ≤ N) ∧
      ∀ kind ls st, Loops w.numWorkers (rankDs kind w.numWorkers A w.rank) ls st →
        (∃ xs : Nat → List (Smp C), (∀ i < max 1 w.numWorkers, ∃ s', (rankDs kind w.numWorkers A w.rank i).D.Pass (st i) (xs i) s') ∧
          (0 < w.numWorkers → Ends w.numWorkers (answers xs)) ∧ ∃ x st', Loops w.numWorkers (rankDs kind w.numWorkers A w.rank) (ls ++ [x]) st') ∧
        ∀ x ∈ ls, x.map (·.content) = inTurns (max 1 w.numWorkers) made N := by
  have hw : w.workers = max 1 w.numWorkers := rfl
  have key : ∀ i, ∃ (Ai : AnyDs C) (out : Nat → List (Smp C)) (L : List C), i < max 1 w.numWorkers →
      valDs (R i) E ds o w i = .ok Ai ∧ Passes Ai.D out ∧ (∀ k, (out k).map (·.content) = L) ∧ ∃ packs batches,
        Packed F o.packing (((ds.flatMap fun d => (d.raws w i).filterMap (load d)).flatMap F.cook).flatMap F.encode) packs ∧
        Batched F E.group.isSome o.batchSize o.dropLast packs batches ∧
        L = o.cut w.numWorkers i (if E.group.isSome then batches.filterMap F.batch else (batches.filterMap F.batch).flatMap F.encodeBatch) := by
    have some : ∀ i, i < max 1 w.numWorkers → ∃ (Ai : AnyDs C) (out : Nat → List (Smp C)) (L : List C),
        valDs (R i) E ds o w i = .ok Ai ∧ Passes Ai.D out ∧ (∀ k, (out k).map (·.content) = L) ∧ ∃ packs batches,
        Packed F o.packing (((ds.flatMap fun d => (d.raws w i).filterMap (load d)).flatMap F.cook).flatMap F.encode) packs ∧
        Batched F E.group.isSome o.batchSize o.dropLast packs batches ∧
        L = o.cut w.numWorkers i (if E.group.isSome then batches.filterMap F.batch else (batches.filterMap F.batch).flatMap F.encodeBatch) := by
      intro i hi
      obtain ⟨Ai, h1, out, h2, packs, batches, h3, h4, h5⟩ := C68_val_contents_partial (R i) E ds o w i hne hds hr (by rw [hw]; exact hi) hb load hload F hE
      exact ⟨Ai, out, _, h1, h2, h5, packs, batches, h3, h4, rfl⟩
    intro i
    by_cases hi : i < max 1 w.numWorkers
    · obtain ⟨Ai, out, L, h⟩ := some i hi
      exact ⟨Ai, out, L, fun _ => h⟩
    · obtain ⟨Ai, out, L, _⟩ := some 0 (by omega)
      exact ⟨Ai, out, L, fun h => absurd h hi⟩
  choose A out made h using key
  refine ⟨fun _ => A, made, ((List.range (max 1 w.numWorkers)).map fun i => (made i).length).sum, fun i hi => ⟨(h i hi).1, (h i hi).2.2.2⟩, ?_, ?_⟩
  · intro i hi
    exact List.le_sum_of_mem (List.mem_map.2 ⟨i, List.mem_range.2 hi, rfl⟩)
  · intro kind ls st hl
    refine ⟨loops_continue (A := fun _ => A) (out := fun _ => out) (fun i hi => (h i hi).2.1) hl, ?_⟩
    intro x hx
    obtain ⟨k, hk, rfl⟩ := List.mem_iff_getElem.1 hx
    obtain ⟨h1, h2⟩ := C79_loop_order (A := fun _ => A) (fun i hi => (h i hi).2.1) hl k hk
    have hN : ∀ i < max 1 w.numWorkers, (made i).length ≤ ((List.range (max 1 w.numWorkers)).map fun i => (made i).length).sum :=
      fun i hi => List.le_sum_of_mem (List.mem_map.2 ⟨i, List.mem_range.2 hi, rfl⟩)
    rcases Nat.eq_zero_or_pos w.numWorkers with h0 | h0
    · rw [h1 h0, (h 0 (by omega)).2.2.1 k, show max 1 w.numWorkers = 1 by omega]
      rw [inTurns_one, List.take_of_length_le]
      have := hN 0 (by omega)
      rwa [show max 1 w.numWorkers = 1 by omega] at this
    · obtain ⟨N, h3, h4⟩ := h2 h0
      have e : max 1 w.numWorkers = w.numWorkers := by omega
      rw [e] at hN ⊢
      have h5 : ∀ i < w.numWorkers, (out i k).map (·.content) = made i := fun i hi => (h i (by omega)).2.2.1 k
      rw [h4, rounds_inTurns]
      have h6 : inTurns w.numWorkers (fun i => (out i k).map (·.content)) N = inTurns w.numWorkers made N := by
        unfold inTurns
        refine List.flatMap_congr fun j _ => ?_
        apply filterMap_congr'
        intro i hi
        show ((out i k).map (·.content))[j]? = _
        rw [h5 i (List.mem_range.1 hi)]
      rw [h6]
      refine inTurns_eq (fun i hi => ?_) hN
      rw [← h5 i hi, List.length_map]
      exact h3 i hi

/-- An example with packing, grouping and generator functions: two ranks with two workers each; the loader can be iterated twice, and both loops give the same. -/
example : ∃ (A : Nat → Nat → AnyDs Nat) (ls : List (List (Smp Nat))) (st : _), Loops 2 (rankDs .basic 2 A 1) ls st ∧ ls.length = 2 ∧
    ∀ x ∈ ls, ∀ y ∈ ls, x.map (·.content) = y.map (·.content) := by
  obtain ⟨A, made, N, _, _, h⟩ := C79_val_loader_contents_partial (fun _ => exR) exG [exDisk "a" 10 4, exDisk "b" 100 7] ⟨2, true, some 3, some 3, true⟩ ⟨1, 2, 2⟩ (by simp)
    (fun d hd => (exVals d hd).1) (by decide) (by decide) _ (fun d hd => (exVals d hd).2)
    ⟨fun c => [c], fun c => [c, 2 * c], fun l => [l], fun l => l, fun c => some (c % 4), fun _ => 2, fun l => some l.sum, fun _ => [1]⟩
    ⟨fun _ => rfl, fun _ _ => rfl, (by intro n h; cases h; exact ⟨by decide, by simp, _, _, _, rfl, fun i l => ⟨_, rfl, rfl⟩, fun i l => ⟨rfl, fun h => by cases h⟩⟩),
      (by intro _ h; cases h; exact ⟨fun _ => Nat.succ_pos _, fun _ _ => rfl⟩), fun _ _ => rfl, fun _ _ => rfl⟩
  obtain ⟨_, _, _, x, st1, h3⟩ := (h .basic [] _ .new).1
  obtain ⟨_, _, _, y, st2, h4⟩ := (h .basic _ _ h3).1
  refine ⟨A, _, st2, h4, rfl, fun a ha b hb => ?_⟩
  rw [(h .basic _ _ h4).2 a ha, (h .basic _ _ h4).2 b hb]

end Verif.Pipeline
