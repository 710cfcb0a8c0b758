import Verif.Loader.EpochResume
import Verif.Loader.TorchEpoch
import Verif.Loader.FailLoader
import Mathlib.Algebra.BigOperators.Group.Finset.Basic
import Mathlib.Algebra.BigOperators.Intervals

/-!
# C122 for the whole loader: saving and resuming over several `for` loops (virtual epochs)

Source: /repo src/megatron/energon/savable_loader.py:353-457, 744, 773-863, 880-932. Each `for` loop over the loader is one pass in each worker process; the processes and the attributes of their wrappers are kept between the loops
(`persistent_workers`, line 727). One loop is the system of `TorchModel.lean` (C35), begun anew by torch's `_reset`, with process 0 first.
-/

namespace Verif.Loader

open Verif.Stream

variable {σ κ C : Type}

/-- A sample of logical worker `w`, as it arrives in the main process -/
def gotOf (w : Nat) (x : Nat × Smp C) : Got C := ⟨w, x.1, x.2⟩

/-- What the worker processes answer in one loop: `ys w` are the samples of logical worker `w`. -/
def turns (n off : Nat) (ys : Nat → List (Nat × Smp C)) (p : Nat) : List (Got C) := (ys (logical n off p)).map (gotOf (logical n off p))

/-- One life of a loader with any number of loops. `past`: what the completed loops have delivered; `s`: the system in the current loop; `xs k w`: the samples of logical worker `w` in loop `k`, and `T w k i` its state in this loop behind
`i` samples. -/
structure LifeP (n rank : Nat) (D : Nat → Dataset σ (Smp C) κ) (us : Nat → σ × WAttr κ) (off : Nat) (cfg : Nat → Cfg)
    (T : Nat → Nat → Nat → σ × WAttr κ) (xs : Nat → Nat → List (Nat × Smp C)) (past : List (List (Got C))) (s : Sys (Got C)) : Prop where
  start : ∀ w < n, T w 0 0 = us w
  answer : ∀ w < n, ∀ k i (hi : i < (xs k w).length), Obs (wstep (D w) (cfg w) (rank * n + w)) (T w k i) (.item (xs k w)[i] (T w k (i + 1)))
  fin : ∀ w < n, ∀ k, Obs (wstep (D w) (cfg w) (rank * n + w)) (T w k (xs k w).length) (.fin (T w (k + 1) 0))
  loops : ∀ k (hk : k < past.length), ∃ t, Reach n (answers (turns n off (xs k))) t ∧ t.phase = .finished ∧ past[k] = got t
  reach : Reach n (answers (turns n off (xs past.length))) s

/-- All samples that have been delivered in this life -/
def delivered (past : List (List (Got C))) (s : Sys (Got C)) : List (Got C) := past.flatten ++ got s

/-- Those of logical worker `w` -/
def fromWorker (w : Nat) (l : List (Got C)) : List (Got C) := l.filter fun x => x.worker = w

/-- The attributes of the wrapper in logical worker `w` after `m` answers in loop `K`; the answer behind the samples is the end of the pass. -/
def attrsP (T : Nat → Nat → Nat → σ × WAttr κ) (xs : Nat → Nat → List (Nat × Smp C)) (K w m : Nat) : WAttr κ :=
  if m ≤ (xs K w).length then (T w K m).2 else (T w (K + 1) 0).2

/-- `_next_worker_id` when the state is saved -/
def nextP (n : Nat) (s : Sys (Got C)) : Nat :=
  match s.phase with
  | .finished => 0
  | _ => nextWorker n (got s)

/-- The state of the loader (savable_loader.py:880-910). `_next_worker_id` is 0 at the beginning, set with each sample (line 812) and set to 0 at the end of a loop (line 851). -/
def saveP (n : Nat) (ws : Nat → WAttr κ) (past : List (List (Got C))) (s : Sys (Got C)) : Option (LState κ) :=
  (saveLoader n ws (delivered past s)).map fun k => ⟨k.workers, nextP n s⟩

/-- Number of answers of logical worker `w` in the current loop -/
def answeredP (n off : Nat) (s : Sys (Got C)) (w : Nat) : Nat := (s.procs (process n off w)).made

/-- Histories of a loader, as `LInc`, with any number of loops in each life. The state is saved between two calls of `next`, in a loop or behind its end, when something has been delivered from each worker in this life. -/
inductive LIncP (n rank : Nat) (D : Nat → Dataset σ (Smp C) κ) : (Nat → σ × WAttr κ) → (Nat → Nat) → Nat → Prop where
  | new : LIncP n rank D (fun w => wfresh (D w)) (fun _ => 0) 0
  | restored {us cs off cfg T xs past} {s : Sys (Got C)} {k : LState κ} :
      LIncP n rank D us cs off → (∀ w < n, 2 ≤ (cfg w).keep ∧ 2 * n ≤ (cfg w).minN) →
      LifeP n rank D us off cfg T xs past s → s.phase ≠ .busy → (∀ w < n, 0 < (fromWorker w (delivered past s)).length) →
      saveP n (fun w => attrsP T xs past.length w (answeredP n off s w)) past s = some k →
      LIncP n rank D (fun w => wresume (D w) (k.workers w)) (fun w => cs w + (fromWorker w (delivered past s)).length) k.next

/-! ### Specification -/

/-- The samples `l` are those of the uninterrupted run from number `c` up to the next end of a pass, with their numbers and keys. -/
structure PassFrom (f : Nat → Smp C) (ends : Nat → Bool) (gid c : Nat) (l : List (Nat × Smp C)) : Prop where
  pos : 0 < l.length
  last : ends (c + l.length) = true
  before : ∀ i, 0 < i → i < l.length → ends (c + i) = false
  samples : l = (List.range l.length).map fun i => (c + i, (f (c + i)).addKey (loaderKey gid (c + i)))

/-- Number of samples of worker `w` in the first `K` loops -/
def inLoops (xs : Nat → Nat → List (Nat × Smp C)) (w K : Nat) : Nat := ((List.range K).map fun k => (xs k w).length).sum

/-! ### Proofs: one loop -/

theorem range_take {α β : Type} (l : List α) (f : α → β) (c : Nat) : ((List.range c).filterMap fun i => l[i]?.map f) = (l.take c).map f := by
  induction c with
  | zero => rfl
  | succ c ih =>
    rw [List.range_succ, List.filterMap_append, ih, List.take_add_one, List.map_append]
    congr 1
    cases h : l[c]? <;> simp [h]

theorem turn_facts {n off : Nat} (hoff : off < n) {w : Nat} (hw : w < n) {ys : Nat → List (Nat × Smp C)} {s : Sys (Got C)} (h : Reach n (answers (turns n off ys)) s) :
    fromWorker w (got s) = ((ys w).take (fromWorker w (got s)).length).map (gotOf w) ∧ (fromWorker w (got s)).length ≤ (ys w).length ∧
      (fromWorker w (got s)).length ≤ answeredP n off s w ∧ min (answeredP n off s w) (ys w).length ≤ (fromWorker w (got s)).length + 2 * n ∧
      (s.phase = .finished → (fromWorker w (got s)).length = (ys w).length) := by
  have hn : 0 < n := by omega
  have hp : process n off w < n := Nat.mod_lt _ hn
  have hs := answers_sticky (turns n off ys)
  have hlp := logical_process hoff hw
  have hY : turns n off ys (process n off w) = (ys w).map (gotOf w) := by unfold turns; rw [hlp]
  have hmem : ∀ x ∈ s.hist, x.1 < n ∧ x.2.worker = logical n off x.1 := by
    obtain ⟨got', low, hg⟩ := h.good hn hs
    intro x hx
    rw [hg.inv.hist, List.mem_filterMap] at hx
    obtain ⟨q, -, hq⟩ := hx
    cases ho : answers (turns n off ys) (q % n) (q / n) with
    | none => rw [ho] at hq; cases hq
    | some y =>
      rw [ho] at hq
      obtain rfl := Option.some.inj hq
      refine ⟨Nat.mod_lt _ hn, ?_⟩
      have h1 := List.mem_of_getElem? ho
      unfold turns at h1
      obtain ⟨z, -, rfl⟩ := List.mem_map.1 h1
      rfl
  have h2 : fromWorker w (got s) = (ofWorker (process n off w) s.hist).map (·.2) := by
    unfold fromWorker got ofWorker
    rw [List.filter_map]
    congr 1
    apply List.filter_congr
    intro x hx
    obtain ⟨h3, h4⟩ := hmem x hx
    simp only [Function.comp, h4, decide_eq_decide]
    constructor
    · intro h5; rw [← h5, process_logical hoff h3]
    · intro h5; rw [h5, hlp]
  obtain ⟨h3, h4⟩ := C35_worker_stream hs h hp
  have hlen : (fromWorker w (got s)).length = (ofWorker (process n off w) s.hist).length := by rw [h2, List.length_map]
  have hle : (ofWorker (process n off w) s.hist).length ≤ (ys w).length := by
    rcases Nat.eq_zero_or_pos (ofWorker (process n off w) s.hist).length with h0 | h0
    · omega
    · have := h4 ((ofWorker (process n off w) s.hist).length - 1) (by omega)
      unfold answers at this
      rw [hY] at this
      by_contra hcon
      apply this
      rw [List.getElem?_eq_none_iff, List.length_map]
      omega
  refine ⟨?_, by rw [hlen]; exact hle, by rw [hlen]; exact delivered_le_made hs h hp, ?_, ?_⟩
  · rw [hlen, h2]
    conv => lhs; rw [h3]
    have e : ∀ i, answers (turns n off ys) (process n off w) i = (ys w)[i]?.map (gotOf w) := by
      intro i
      unfold answers
      rw [hY, List.getElem?_map]
    simp only [e, Option.map_map]
    rw [range_take, List.map_map]
    rfl
  · rw [hlen]
    rcases Nat.eq_zero_or_pos (min (answeredP n off s w) (ys w).length) with h0 | h0
    · omega
    · have := C35_prefetch hs h hp (i := min (answeredP n off s w) (ys w).length - 1) (by unfold answeredP at *; omega) (by
        unfold answers
        rw [hY]
        intro hcon
        rw [List.getElem?_eq_none_iff, List.length_map] at hcon
        omega)
      omega
  · intro hf
    rw [hlen, ((C35_loop hn (turns n off ys)).2 s h hf).1 _ hp, hY, List.length_map, List.length_map]

/-! ### Proofs: the passes of one worker -/

theorem AtP.pass {D : Dataset σ (Smp C) κ} (hD : D.ResumesUpToEnd) (hE : ResumesBehindEnd D) {cfg : Cfg} {gid : Nat} {f : Nat → Smp C} {ends : Nat → Bool} {st fn : Nat → σ} (hr : PassRun D f ends st fn)
    {c : Nat} {u : σ × WAttr κ} (hu : AtP D ends st fn c u) (hn : u.2.ctl = .fresh) {l : List (Nat × Smp C)} {S : Nat → σ × WAttr κ} (h0 : S 0 = u)
    (hi : ∀ i (h : i < l.length), Obs (wstep D cfg gid) (S i) (.item l[i] (S (i + 1)))) {v : σ × WAttr κ} (hv : Obs (wstep D cfg gid) (S l.length) (.fin v)) :
    PassFrom f ends gid c l ∧ AtP D ends st fn (c + l.length) v ∧ v.2.ctl = .fresh := by
  have hfresh : ∀ p : σ × WAttr κ, p.2.ctl = .fresh → ¬ AtEnd ends p := fun p hp h => by
    have h := h.1
    rw [hp] at h
    cases h
  have key : ∀ i ≤ l.length, AtP D ends st fn (c + i) (S i) ∧ (i = 0 → (S i).2.ctl = .fresh) ∧ (0 < i → (S i).2.ctl = .run false true ∧ (S i).2.idx = c + i) := by
    intro i
    induction i with
    | zero => intro _; rw [h0]; exact ⟨hu, fun _ => hn, fun h => absurd h (by decide)⟩
    | succ i ih =>
      intro hl
      obtain ⟨h1, -, -⟩ := ih (by omega)
      have h2 := hi i (by omega)
      have h3 : ¬ AtEnd ends (S i) := by
        intro he
        obtain ⟨q, h4, -⟩ := h1.finish hD hE (cfg := cfg) (gid := gid) hr he
        cases Obs.det h2 h4
      obtain ⟨q, h4, h5, h6, h7, -⟩ := h1.item hD hE (cfg := cfg) (gid := gid) hr h3
      have h8 := Obs.det h2 h4
      simp only [Out.item.injEq] at h8
      rw [h8.2]
      exact ⟨h5, by simp, fun _ => ⟨h6, h7⟩⟩
  have hitem : ∀ i (h : i < l.length), l[i] = (c + i, (f (c + i)).addKey (loaderKey gid (c + i))) ∧ ¬ AtEnd ends (S i) := by
    intro i h
    obtain ⟨h1, -, -⟩ := key i (by omega)
    have h2 := hi i h
    have h3 : ¬ AtEnd ends (S i) := by
      intro he
      obtain ⟨q, h4, -⟩ := h1.finish hD hE (cfg := cfg) (gid := gid) hr he
      cases Obs.det h2 h4
    obtain ⟨q, h4, -⟩ := h1.item hD hE (cfg := cfg) (gid := gid) hr h3
    have h8 := Obs.det h2 h4
    simp only [Out.item.injEq] at h8
    exact ⟨h8.1, h3⟩
  obtain ⟨h1, h2, h3⟩ := key l.length (Nat.le_refl _)
  have hend : AtEnd ends (S l.length) := by
    by_contra he
    obtain ⟨q, h4, -⟩ := h1.item hD hE (cfg := cfg) (gid := gid) hr he
    cases Obs.det hv h4
  have hpos : 0 < l.length := by
    rcases Nat.eq_zero_or_pos l.length with h | h
    · exact absurd hend (hfresh _ (h2 h))
    · exact h
  obtain ⟨q, h4, h5, h6, -⟩ := h1.finish hD hE (cfg := cfg) (gid := gid) hr hend
  have h8 := Obs.det hv h4
  simp only [Out.fin.injEq] at h8
  refine ⟨⟨hpos, ?_, ?_, ?_⟩, by rw [h8]; exact h5, by rw [h8]; exact h6⟩
  · have := hend.2
    rwa [(h3 hpos).2] at this
  · intro i hi0 hil
    obtain ⟨-, -, h9⟩ := key i (by omega)
    have h10 := (hitem i hil).2
    cases he : ends (c + i) with
    | false => rfl
    | true => exact absurd ⟨(h9 hi0).1, by rw [(h9 hi0).2]; exact he⟩ h10
  · apply List.ext_getElem
    · simp
    · intro i h h'
      rw [(hitem i h).1]
      simp

theorem Does.items {D : Dataset σ (Smp C) κ} {cfg : Cfg} {gid : Nat} {u : σ × WAttr κ} {evs : List (Ev (Nat × Smp C))} {l : List (Nat × Smp C)} {S : Nat → σ × WAttr κ} (h : Does D cfg gid u evs (S 0))
    (hi : ∀ i (h : i < l.length), Obs (wstep D cfg gid) (S i) (.item l[i] (S (i + 1)))) : ∀ i ≤ l.length, Does D cfg gid u (evs ++ (l.take i).map .item) (S i) := by
  intro i
  induction i with
  | zero => intro _; simpa using h
  | succ i ih =>
    intro hl
    have h1 := (ih (by omega)).item (hi i (by omega))
    rw [List.take_add_one, List.getElem?_eq_getElem (show i < l.length by omega), List.map_append, ← List.append_assoc]
    exact h1

/-- The answers of worker `w` in the first `K` loops -/
def evsP (xs : Nat → Nat → List (Nat × Smp C)) (w K : Nat) : List (Ev (Nat × Smp C)) := (List.range K).flatMap fun k => (xs k w).map .item ++ [.fin]

theorem itemsOf_map {α : Type} (l : List α) : itemsOf (l.map Ev.item) = l := by
  induction l with
  | nil => rfl
  | cons a l ih => simp [itemsOf, ih]

theorem evsP_succ (xs : Nat → Nat → List (Nat × Smp C)) (w K : Nat) : evsP xs w (K + 1) = evsP xs w K ++ ((xs K w).map .item ++ [.fin]) := by
  simp [evsP, List.range_succ]

theorem inLoops_succ (xs : Nat → Nat → List (Nat × Smp C)) (w K : Nat) : inLoops xs w (K + 1) = inLoops xs w K + (xs K w).length := by
  simp [inLoops, List.range_succ]

theorem itemsOf_evsP (xs : Nat → Nat → List (Nat × Smp C)) (w K : Nat) : itemsOf (evsP xs w K) = (List.range K).flatMap fun k => xs k w := by
  induction K with
  | zero => rfl
  | succ K ih =>
    rw [evsP_succ, Dataset.itemsOf_append, ih, Dataset.itemsOf_append, itemsOf_map, List.range_succ, List.flatMap_append]
    simp [itemsOf]

theorem length_evsP (xs : Nat → Nat → List (Nat × Smp C)) (w K : Nat) : (itemsOf (evsP xs w K)).length = inLoops xs w K := by
  rw [itemsOf_evsP, List.length_flatMap]
  rfl

section life
variable {n rank : Nat} {D : Nat → Dataset σ (Smp C) κ} {us : Nat → σ × WAttr κ} {off : Nat} {cfg : Nat → Cfg}
  {T : Nat → Nat → Nat → σ × WAttr κ} {xs : Nat → Nat → List (Nat × Smp C)} {past : List (List (Got C))} {s : Sys (Got C)}

theorem LifeP.does (h : LifeP n rank D us off cfg T xs past s) {w : Nat} (hw : w < n) (K : Nat) : Does (D w) (cfg w) (rank * n + w) (us w) (evsP xs w K) (T w K 0) := by
  induction K with
  | zero => rw [h.start w hw]; exact .nil
  | succ K ih =>
    have h1 := ih.items (h.answer w hw K) _ (Nat.le_refl _)
    rw [List.take_length] at h1
    have := h1.fin (h.fin w hw K)
    rw [evsP_succ, ← List.append_assoc]
    exact this

variable {f : Nat → Nat → Smp C} {ends : Nat → Nat → Bool} {st fn : Nat → Nat → σ} {cs : Nat → Nat}

theorem LifeP.passes (hD : ∀ w < n, (D w).ResumesUpToEnd) (hE : ∀ w < n, ResumesBehindEnd (D w)) (hr : ∀ w < n, PassRun (D w) (f w) (ends w) (st w) (fn w))
    (hu : ∀ w < n, IncP (D w) (rank * n + w) (us w) (cs w)) (h : LifeP n rank D us off cfg T xs past s) {w : Nat} (hw : w < n) (K : Nat) :
    (AtP (D w) (ends w) (st w) (fn w) (cs w + inLoops xs w K) (T w K 0) ∧ (T w K 0).2.ctl = .fresh) ∧ PassFrom (f w) (ends w) (rank * n + w) (cs w + inLoops xs w K) (xs K w) := by
  induction K with
  | zero =>
    obtain ⟨h1, h2, -⟩ := (hu w hw).at (hD w hw) (hE w hw) (hr w hw)
    rw [h.start w hw]
    exact ⟨⟨h1, h2⟩, (h1.pass (hD w hw) (hE w hw) (hr w hw) h2 (h.start w hw) (h.answer w hw 0) (h.fin w hw 0)).1⟩
  | succ K ih =>
    obtain ⟨⟨h1, h2⟩, -⟩ := ih
    obtain ⟨-, h3, h4⟩ := h1.pass (hD w hw) (hE w hw) (hr w hw) h2 rfl (h.answer w hw K) (h.fin w hw K)
    rw [inLoops_succ, ← Nat.add_assoc]
    exact ⟨⟨h3, h4⟩, (h3.pass (hD w hw) (hE w hw) (hr w hw) h4 rfl (h.answer w hw (K + 1)) (h.fin w hw (K + 1))).1⟩

theorem LifeP.flat (hD : ∀ w < n, (D w).ResumesUpToEnd) (hE : ∀ w < n, ResumesBehindEnd (D w)) (hr : ∀ w < n, PassRun (D w) (f w) (ends w) (st w) (fn w))
    (hu : ∀ w < n, IncP (D w) (rank * n + w) (us w) (cs w)) (h : LifeP n rank D us off cfg T xs past s) {w : Nat} (hw : w < n) (K d : Nat) (hd : d ≤ (xs K w).length) :
    ((List.range K).flatMap fun k => xs k w) ++ (xs K w).take d =
      (List.range (inLoops xs w K + d)).map fun i => (cs w + i, (f w (cs w + i)).addKey (loaderKey (rank * n + w) (cs w + i))) := by
  have htake : ∀ K d, d ≤ (xs K w).length → (xs K w).take d = (List.range d).map fun i =>
      (cs w + (inLoops xs w K + i), (f w (cs w + (inLoops xs w K + i))).addKey (loaderKey (rank * n + w) (cs w + (inLoops xs w K + i)))) := by
    intro K d hd
    have h1 := (h.passes hD hE hr hu hw K).2.samples
    rw [h1, List.map_take.symm, List.take_range, Nat.min_eq_left hd]
    apply List.map_congr_left
    intro i _
    rw [Nat.add_assoc]
  have hK : ∀ K, ((List.range K).flatMap fun k => xs k w) = (List.range (inLoops xs w K)).map fun i => (cs w + i, (f w (cs w + i)).addKey (loaderKey (rank * n + w) (cs w + i))) := by
    intro K
    induction K with
    | zero => rfl
    | succ K ih =>
      have h2 := htake K _ (Nat.le_refl _)
      rw [List.take_length] at h2
      rw [List.range_succ, List.flatMap_append, ih, inLoops_succ, List.range_add, List.map_append, List.map_map]
      congr 1
      simp only [List.flatMap_cons, List.flatMap_nil, List.append_nil]
      exact h2
  rw [hK, htake K d hd, List.range_add, List.map_append, List.map_map]
  rfl

/-- What has been delivered from each worker -/
theorem LifeP.fromW (h : LifeP n rank D us off cfg T xs past s) (hoff : off < n) {w : Nat} (hw : w < n) :
    fromWorker w (delivered past s) = (((List.range past.length).flatMap fun k => xs k w) ++ (xs past.length w).take (fromWorker w (got s)).length).map (gotOf w) ∧
      (fromWorker w (delivered past s)).length = inLoops xs w past.length + (fromWorker w (got s)).length := by
  have h1 : fromWorker w past.flatten = ((List.range past.length).flatMap fun k => xs k w).map (gotOf w) := by
    unfold fromWorker
    rw [List.filter_flatten, List.map_flatMap]
    rw [List.flatMap_def]
    congr 1
    apply List.ext_getElem
    · simp
    · intro k hk hk'
      rw [List.getElem_map, List.getElem_map, List.getElem_range]
      obtain ⟨t, ht, hf, e⟩ := h.loops k (by simpa using hk)
      rw [e]
      obtain ⟨h2, -, -, -, h3⟩ := turn_facts hoff hw ht
      have h3 := h3 hf
      rw [h3, List.take_length] at h2
      exact h2
  have h2 : fromWorker w (delivered past s) = (((List.range past.length).flatMap fun k => xs k w) ++ (xs past.length w).take (fromWorker w (got s)).length).map (gotOf w) := by
    unfold delivered
    rw [List.map_append, ← (turn_facts hoff hw h.reach).1, ← h1]
    simp [fromWorker]
  refine ⟨h2, ?_⟩
  rw [h2, List.length_map, List.length_append, List.length_flatMap, List.length_take, Nat.min_eq_left (turn_facts hoff hw h.reach).2.1]
  rfl

/-- The answers a worker has given so far -/
def soFar (xs : Nat → Nat → List (Nat × Smp C)) (K w m : Nat) : List (Ev (Nat × Smp C)) :=
  if m ≤ (xs K w).length then evsP xs w K ++ ((xs K w).take m).map .item else evsP xs w (K + 1)

theorem LifeP.soFar (h : LifeP n rank D us off cfg T xs past s) {w : Nat} (hw : w < n) (K m : Nat) :
    ∃ p, Does (D w) (cfg w) (rank * n + w) (us w) (soFar xs K w m) p ∧ p.2 = attrsP T xs K w m := by
  unfold Loader.soFar attrsP
  split
  · next hm => exact ⟨_, (h.does hw K).items (h.answer w hw K) m hm, rfl⟩
  · exact ⟨_, h.does hw (K + 1), rfl⟩

theorem soFar_length (xs : Nat → Nat → List (Nat × Smp C)) (K w m : Nat) : (itemsOf (soFar xs K w m)).length = inLoops xs w K + min m (xs K w).length := by
  unfold soFar
  split
  · next hm => rw [Dataset.itemsOf_append, itemsOf_map, List.length_append, length_evsP, List.length_take]
  · next hm => rw [length_evsP, inLoops_succ, Nat.min_eq_right (by omega)]

/-- The number the main process has noted for each worker -/
theorem LifeP.noted (hD : ∀ w < n, (D w).ResumesUpToEnd) (hE : ∀ w < n, ResumesBehindEnd (D w)) (hr : ∀ w < n, PassRun (D w) (f w) (ends w) (st w) (fn w))
    (hu : ∀ w < n, IncP (D w) (rank * n + w) (us w) (cs w)) (h : LifeP n rank D us off cfg T xs past s) (hoff : off < n) {w : Nat} (hw : w < n) (hpos : 0 < (fromWorker w (delivered past s)).length) :
    counter (delivered past s) w = cs w + (fromWorker w (delivered past s)).length - 1 := by
  obtain ⟨h1, h2⟩ := h.fromW hoff hw
  have h3 := h.flat hD hE hr hu hw past.length _ (turn_facts hoff hw h.reach).2.1
  unfold counter
  change ((fromWorker w (delivered past s)).getLast?.map (·.idx)).getD 0 = _
  rw [h2] at hpos ⊢
  rw [h1, h3]
  obtain ⟨d, hd⟩ := Nat.exists_eq_succ_of_ne_zero (by omega : inLoops xs w past.length + (fromWorker w (got s)).length ≠ 0)
  rw [hd, List.range_succ, List.map_append, List.map_append]
  simp [gotOf]

end life

theorem LIncP.inc {n rank : Nat} (hn : 0 < n) {D : Nat → Dataset σ (Smp C) κ} (hD : ∀ w < n, (D w).ResumesUpToEnd) (hE : ∀ w < n, ResumesBehindEnd (D w))
    {f : Nat → Nat → Smp C} {ends : Nat → Nat → Bool} {st fn : Nat → Nat → σ} (hr : ∀ w < n, PassRun (D w) (f w) (ends w) (st w) (fn w))
    {us : Nat → σ × WAttr κ} {cs : Nat → Nat} {off : Nat} (h : LIncP n rank D us cs off) : off < n ∧ ∀ w < n, IncP (D w) (rank * n + w) (us w) (cs w) := by
  induction h with
  | new => exact ⟨hn, fun w _ => .fresh⟩
  | @restored us cs off cfg T xs past s k _ hcfg hl hidle hpos hsave ih =>
    obtain ⟨hoff, ih⟩ := ih
    unfold saveP saveLoader at hsave
    split at hsave
    · next hall =>
      simp only [Option.map_some, Option.some.injEq] at hsave
      subst hsave
      refine ⟨?_, ?_⟩
      · unfold nextP
        split
        · exact hn
        · simp only [nextWorker]
          cases (got s).getLast? with
          | none => exact hn
          | some x => exact Nat.mod_lt _ hn
      · intro w hw
        have h4 := hpos w hw
        obtain ⟨p, h5, h6⟩ := hl.soFar hw past.length (answeredP n off s w)
        obtain ⟨-, h7⟩ := hl.fromW hoff hw
        obtain ⟨-, h8, h9, -⟩ := turn_facts hoff hw hl.reach
        have hlen := soFar_length xs past.length w (answeredP n off s w)
        have hcount := hl.noted hD hE hr ih hoff hw h4
        dsimp only
        refine .restored (ih w hw) h5 (by omega) (by rw [hlen]; omega) ?_
        rw [h6, ← hcount]
        have := List.all_eq_true.1 hall w (List.mem_range.2 hw)
        obtain ⟨x, hx⟩ := Option.isSome_iff_exists.1 this
        simp only [hx, Option.getD_some]
    · simp at hsave

/-! ### The property -/

section
variable {n rank : Nat} {D : Nat → Dataset σ (Smp C) κ} {f : Nat → Nat → Smp C} {ends : Nat → Nat → Bool} {st fn : Nat → Nat → σ} {us : Nat → σ × WAttr κ} {cs : Nat → Nat} {off : Nat} {cfg : Nat → Cfg}
  {T : Nat → Nat → Nat → σ × WAttr κ} {xs : Nat → Nat → List (Nat × Smp C)} {past : List (List (Got C))} {s : Sys (Got C)}

/-- **C122, whole loader: what a loop is for a worker.** After any number of saves and restores, in each loop of a loader a worker hands in exactly the samples from the first one that has not been delivered up to the next end of a pass of
the uninterrupted run. -/
theorem C122_loader_passes (hn : 0 < n) (hD : ∀ w < n, (D w).ResumesUpToEnd) (hE : ∀ w < n, ResumesBehindEnd (D w)) (hr : ∀ w < n, PassRun (D w) (f w) (ends w) (st w) (fn w))
    (h : LIncP n rank D us cs off) (hl : LifeP n rank D us off cfg T xs past s) {w : Nat} (hw : w < n) (k : Nat) :
    PassFrom (f w) (ends w) (rank * n + w) (cs w + inLoops xs w k) (xs k w) :=
  (hl.passes hD hE hr (h.inc hn hD hE hr).2 hw k).2

/-- **C122, whole loader: nothing is lost or repeated.** What has been delivered from each worker, in all loops of this life, is exactly the continuation of its uninterrupted run, in order. -/
theorem C122_loader_streams (hn : 0 < n) (hD : ∀ w < n, (D w).ResumesUpToEnd) (hE : ∀ w < n, ResumesBehindEnd (D w)) (hr : ∀ w < n, PassRun (D w) (f w) (ends w) (st w) (fn w))
    (h : LIncP n rank D us cs off) (hl : LifeP n rank D us off cfg T xs past s) {w : Nat} (hw : w < n) :
    fromWorker w (delivered past s) = (List.range (fromWorker w (delivered past s)).length).map fun i =>
      ⟨w, cs w + i, (f w (cs w + i)).addKey (loaderKey (rank * n + w) (cs w + i))⟩ := by
  obtain ⟨hoff, hu⟩ := h.inc hn hD hE hr
  obtain ⟨h1, h2⟩ := hl.fromW hoff hw
  rw [hl.flat hD hE hr hu hw past.length _ (turn_facts hoff hw hl.reach).2.1, List.map_map, ← h2] at h1
  exact h1

/-- **C122, whole loader: the order.** A completed loop has delivered everything of one pass of each worker, round robin over the processes (one that has nothing left is passed over); the current loop has delivered a beginning of that. -/
theorem C122_loader_order (hn : 0 < n) (hD : ∀ w < n, (D w).ResumesUpToEnd) (hE : ∀ w < n, ResumesBehindEnd (D w)) (hr : ∀ w < n, PassRun (D w) (f w) (ends w) (st w) (fn w))
    (h : LIncP n rank D us cs off) (hl : LifeP n rank D us off cfg T xs past s) :
    (∀ k (hk : k < past.length), (∃ K, past[k] = (rounds n (answers (turns n off (xs k))) K).map (·.2)) ∧ ∀ w < n, fromWorker w past[k] = (xs k w).map (gotOf w)) ∧
      ∃ K, got s <+: (rounds n (answers (turns n off (xs past.length))) K).map (·.2) := by
  obtain ⟨hoff, -⟩ := h.inc hn hD hE hr
  refine ⟨fun k hk => ?_, ?_⟩
  · obtain ⟨t, ht, hf, e⟩ := hl.loops k hk
    obtain ⟨-, -, K, hK⟩ := (C35_loop hn (turns n off (xs k))).2 t ht hf
    refine ⟨⟨K, by rw [e, got, hK]⟩, fun w hw => ?_⟩
    obtain ⟨h2, -, -, -, h3⟩ := turn_facts hoff hw ht
    have h3 := h3 hf
    rw [h3, List.take_length] at h2
    rw [e]
    exact h2
  · obtain ⟨K, hK⟩ := C35_round_robin hn (answers_sticky _) hl.reach
    exact ⟨K, hK.map _⟩

theorem fin_prefix {α : Type} {es A : List (Ev α)} (B : List α) (h : es ++ [.fin] <+: A ++ B.map .item) : es ++ [.fin] <+: A := by
  obtain ⟨R, rfl⟩ : ∃ R, B = R.reverse := ⟨B.reverse, by simp⟩
  induction R with
  | nil => simpa using h
  | cons b R ih =>
    rw [List.reverse_cons] at h
    generalize R.reverse = B at *
    rw [List.map_append, ← List.append_assoc] at h
    simp only [List.map_cons, List.map_nil] at h
    rcases List.prefix_concat_iff.1 h with h | h
    · have := List.append_inj' h rfl
      simp at this
    · exact ih h

theorem fin_prefix_len {α : Type} {es A : List (Ev α)} (h : es ++ [.fin] <+: A) : (itemsOf es).length ≤ (itemsOf A).length := by
  obtain ⟨B, rfl⟩ := h
  rw [Dataset.itemsOf_append, Dataset.itemsOf_append, List.length_append, List.length_append]
  omega

/-- **C122, whole loader: the state can be saved** in any loop, and between two loops, if something has been delivered from each worker, and from a worker that has reported the end of its pass everything. Missing: saving when a worker has
reported the end of its pass and some of its samples have not been delivered (false: `C37_violated_end`). -/
theorem C122_loader_saved_partial (hn : 0 < n) (hD : ∀ w < n, (D w).ResumesUpToEnd) (hE : ∀ w < n, ResumesBehindEnd (D w)) (hr : ∀ w < n, PassRun (D w) (f w) (ends w) (st w) (fn w))
    (h : LIncP n rank D us cs off) (hcfg : ∀ w < n, 2 ≤ (cfg w).keep ∧ 2 * n ≤ (cfg w).minN) (hl : LifeP n rank D us off cfg T xs past s) (hpos : ∀ w < n, 0 < (fromWorker w (delivered past s)).length)
    (hend : ∀ w < n, (xs past.length w).length < answeredP n off s w → (fromWorker w (got s)).length = (xs past.length w).length) :
    ∃ k, saveP n (fun w => attrsP T xs past.length w (answeredP n off s w)) past s = some k := by
  obtain ⟨hoff, hu⟩ := h.inc hn hD hE hr
  unfold saveP saveLoader
  rw [if_pos]
  · exact ⟨_, rfl⟩
  · rw [List.all_eq_true]
    intro w hw
    have hw : w < n := List.mem_range.1 hw
    have h0 := hpos w hw
    obtain ⟨p, h1, h2⟩ := hl.soFar hw past.length (answeredP n off s w)
    obtain ⟨-, h3⟩ := hl.fromW hoff hw
    obtain ⟨-, h4, -, h5, -⟩ := turn_facts hoff hw hl.reach
    have hlen := soFar_length xs past.length w (answeredP n off s w)
    have := C122_worker_saved_partial (M := 2 * n) (hD w hw) (hE w hw) (hr w hw) (hu w hw) (hcfg w hw).1 (hcfg w hw).2 h1 (c' := cs w + (fromWorker w (delivered past s)).length) (by omega) (by omega) (by
      intro es hes
      unfold soFar at hes
      split at hes
      · have := fin_prefix_len (fin_prefix _ hes)
        rw [length_evsP] at this
        omega
      · next hm =>
        have := fin_prefix_len hes
        rw [length_evsP, inLoops_succ] at this
        have := hend w hw (by omega)
        omega)
    dsimp only
    rw [hl.noted hD hE hr hu hoff hw h0, ← h2]
    exact this

theorem AtP.exists_pass {D : Dataset σ (Smp C) κ} (hD : D.ResumesUpToEnd) (hE : ResumesBehindEnd D) {cfg : Cfg} {gid : Nat} {f : Nat → Smp C} {ends : Nat → Bool} {st fn : Nat → σ} (hr : PassRun D f ends st fn) :
    ∀ (d c : Nat) (u : σ × WAttr κ), AtP D ends st fn c u → ¬ AtEnd ends u → ends (c + d + 1) = true →
      ∃ (l : List (Nat × Smp C)) (S : Nat → σ × WAttr κ) (v : σ × WAttr κ), S 0 = u ∧ (∀ i (h : i < l.length), Obs (wstep D cfg gid) (S i) (.item l[i] (S (i + 1)))) ∧
        Obs (wstep D cfg gid) (S l.length) (.fin v) ∧ v.2.ctl = .fresh ∧ AtP D ends st fn (c + l.length) v := by
  intro d
  induction d with
  | zero =>
    intro c u hu hn he
    obtain ⟨q, h1, h2, h3, h4, -⟩ := hu.item hD hE (cfg := cfg) (gid := gid) hr hn
    obtain ⟨v, h5, h6, h7, -⟩ := h2.finish hD hE (cfg := cfg) (gid := gid) hr ⟨h3, by rw [h4]; exact he⟩
    refine ⟨[(c, (f c).addKey (loaderKey gid c))], fun i => if i = 0 then u else q, v, rfl, ?_, h5, h7, h6⟩
    intro i hi
    have : i = 0 := by simpa using hi
    subst this
    exact h1
  | succ d ih =>
    intro c u hu hn he
    obtain ⟨q, h1, h2, h3, h4, -⟩ := hu.item hD hE (cfg := cfg) (gid := gid) hr hn
    by_cases hq : AtEnd ends q
    · obtain ⟨v, h5, h6, h7, -⟩ := h2.finish hD hE (cfg := cfg) (gid := gid) hr hq
      refine ⟨[(c, (f c).addKey (loaderKey gid c))], fun i => if i = 0 then u else q, v, rfl, ?_, h5, h7, h6⟩
      intro i hi
      have : i = 0 := by simpa using hi
      subst this
      exact h1
    · obtain ⟨l, S, v, h5, h6, h7, h8, h9⟩ := ih (c + 1) q h2 hq (by rw [← he]; congr 1; omega)
      refine ⟨(c, (f c).addKey (loaderKey gid c)) :: l, fun i => match i with | 0 => u | i + 1 => S i, v, rfl, ?_, h7, h8, ?_⟩
      · intro i hi
        cases i with
        | zero => simpa [h5] using h1
        | succ i => exact h6 i (by simpa using hi)
      · rw [List.length_cons, show c + (l.length + 1) = c + 1 + l.length by omega]
        exact h9

/-- **C122, whole loader: it goes on.** If the passes of the datasets have an end, a new or restored loader can be used for any number of loops, and each ends (with `LifeP.next`, `LifeP.again` and `C35_loop`). -/
theorem C122_loader_goes_on (hn : 0 < n) (hD : ∀ w < n, (D w).ResumesUpToEnd) (hE : ∀ w < n, ResumesBehindEnd (D w)) (hr : ∀ w < n, PassRun (D w) (f w) (ends w) (st w) (fn w))
    (hinf : ∀ w < n, ∀ c, ∃ j > c, ends w j = true) (h : LIncP n rank D us cs off) (cfg : Nat → Cfg) : ∃ T xs, LifeP n rank D us off cfg T xs [] (start (Got C) n) := by
  obtain ⟨-, hu⟩ := h.inc hn hD hE hr
  have key : ∀ w, w < n → ∃ (T : Nat → Nat → σ × WAttr κ) (l : Nat → List (Nat × Smp C)), T 0 0 = us w ∧
      (∀ k i (hi : i < (l k).length), Obs (wstep (D w) (cfg w) (rank * n + w)) (T k i) (.item (l k)[i] (T k (i + 1)))) ∧
      ∀ k, Obs (wstep (D w) (cfg w) (rank * n + w)) (T k (l k).length) (.fin (T (k + 1) 0)) := by
    intro w hw
    obtain ⟨h1, h2, -⟩ := (hu w hw).at (hD w hw) (hE w hw) (hr w hw)
    have one : ∀ p : {p : σ × WAttr κ // p.2.ctl = .fresh ∧ ∃ c, AtP (D w) (ends w) (st w) (fn w) c p}, ∃ (l : List (Nat × Smp C)) (S : Nat → σ × WAttr κ)
        (v : {p : σ × WAttr κ // p.2.ctl = .fresh ∧ ∃ c, AtP (D w) (ends w) (st w) (fn w) c p}), S 0 = p.1 ∧
        (∀ i (h : i < l.length), Obs (wstep (D w) (cfg w) (rank * n + w)) (S i) (.item l[i] (S (i + 1)))) ∧ Obs (wstep (D w) (cfg w) (rank * n + w)) (S l.length) (.fin v.1) := by
      rintro ⟨p, hp, c, hc⟩
      obtain ⟨j, hj, he⟩ := hinf w hw c
      obtain ⟨l, S, v, h3, h4, h5, h6, h7⟩ := AtP.exists_pass (cfg := cfg w) (gid := rank * n + w) (hD w hw) (hE w hw) (hr w hw) (j - c - 1) c p hc
        (fun h => by have h := h.1; rw [hp] at h; cases h) (by rw [← he]; congr 1; omega)
      exact ⟨l, S, ⟨v, h6, _, h7⟩, h3, h4, h5⟩
    choose l S v h3 h4 h5 using one
    let P : Nat → {p : σ × WAttr κ // p.2.ctl = .fresh ∧ ∃ c, AtP (D w) (ends w) (st w) (fn w) c p} := Nat.rec ⟨us w, h2, _, h1⟩ fun _ p => v p
    refine ⟨fun k => S (P k), fun k => l (P k), h3 _, fun k => h4 (P k), fun k => ?_⟩
    have := h5 (P k)
    show Obs _ _ (.fin (S (P (k + 1)) 0))
    rw [h3]
    exact this
  have key' : ∀ w, ∃ (T : Nat → Nat → σ × WAttr κ) (l : Nat → List (Nat × Smp C)), w < n → T 0 0 = us w ∧
      (∀ k i (hi : i < (l k).length), Obs (wstep (D w) (cfg w) (rank * n + w)) (T k i) (.item (l k)[i] (T k (i + 1)))) ∧
      ∀ k, Obs (wstep (D w) (cfg w) (rank * n + w)) (T k (l k).length) (.fin (T (k + 1) 0)) := by
    intro w
    by_cases hw : w < n
    · obtain ⟨T, l, h1⟩ := key w hw
      exact ⟨T, l, fun _ => h1⟩
    · exact ⟨fun _ _ => us w, fun _ => [], fun h => absurd h hw⟩
  choose T l hT using key'
  exact ⟨T, fun k w => l w k, ⟨fun w hw => (hT w hw).1, fun w hw => (hT w hw).2.1, fun w hw => (hT w hw).2.2, fun k hk => absurd hk (by simp), .start⟩⟩

/-- The system goes on. -/
theorem LifeP.next (hl : LifeP n rank D us off cfg T xs past s) {s' : Sys (Got C)} (h : Step n (answers (turns n off (xs past.length))) s s') : LifeP n rank D us off cfg T xs past s' :=
  { hl with reach := .step hl.reach h }

/-- The next loop -/
theorem LifeP.again (hl : LifeP n rank D us off cfg T xs past s) (h : s.phase = .finished) : LifeP n rank D us off cfg T xs (past ++ [got s]) (Loader.start (Got C) n) := by
  refine { hl with loops := ?_, reach := .start }
  intro k hk
  rcases Nat.lt_or_ge k past.length with h1 | h1
  · rw [List.getElem_append_left h1]
    exact hl.loops k h1
  · have : k = past.length := by simp at hk; omega
    subst this
    exact ⟨s, hl.reach, h, by simp⟩

theorem sum_range_eq (g : Nat → Nat) (n : Nat) : ((List.range n).map g).sum = ∑ i ∈ Finset.range n, g i := by
  induction n with
  | zero => rfl
  | succ n ih => rw [List.range_succ, List.map_append, List.sum_append, ih, Finset.sum_range_succ]; simp

/-- **C122, whole loader: the length of a loop.** A completed loop has delivered as much as the passes of the workers have together. -/
theorem C122_loader_length (hn : 0 < n) (hD : ∀ w < n, (D w).ResumesUpToEnd) (hE : ∀ w < n, ResumesBehindEnd (D w)) (hr : ∀ w < n, PassRun (D w) (f w) (ends w) (st w) (fn w))
    (h : LIncP n rank D us cs off) (hl : LifeP n rank D us off cfg T xs past s) (k : Nat) (hk : k < past.length) :
    past[k].length = ((List.range n).map fun w => (xs k w).length).sum := by
  obtain ⟨hoff, -⟩ := h.inc hn hD hE hr
  obtain ⟨t, ht, hf, e⟩ := hl.loops k hk
  obtain ⟨-, hp, -⟩ := (C35_loop hn (turns n off (xs k))).2 t ht hf
  have h1 := hp.length_eq
  rw [e, got, h1, List.length_flatMap]
  rw [sum_range_eq, sum_range_eq]
  refine Finset.sum_nbij' (logical n off) (process n off) ?_ ?_ ?_ ?_ ?_
  · intro p _; exact Finset.mem_range.2 (logical_lt hn)
  · intro p _; exact Finset.mem_range.2 (Nat.mod_lt _ hn)
  · intro p hp; exact process_logical hoff (Finset.mem_range.1 hp)
  · intro p hp; exact logical_process hoff (Finset.mem_range.1 hp)
  · intro p _; simp [turns]

/-- **C122, whole loader: the batches of a loop in order.** With next worker 0 and workers whose passes are the shares of an epoch of length `L` (worker `i` has `L / n` samples, and one more if `i < L % n`), a completed loop is a round
robin without gaps. -/
theorem C122_loader_rounds (hn : 0 < n) (hl : LifeP n rank D us 0 cfg T xs past s) (k : Nat) (hk : k < past.length) {L : Nat} (hL : ∀ i < n, (xs k i).length = L / n + if i < L % n then 1 else 0) :
    past[k].length = L ∧ ∀ q (hq : q < past[k].length), ∃ x, (xs k (q % n))[q / n]? = some x ∧ past[k][q] = gotOf (q % n) x := by
  obtain ⟨t, ht, hf, e⟩ := hl.loops k hk
  obtain ⟨K, hK, hh⟩ := C35_complete hn (answers_sticky _) ht hf
  have hlog : ∀ p < n, logical n 0 p = p := by
    intro p hp
    rw [logical_eq, Nat.sub_zero, Nat.add_mod_right, Nat.mod_eq_of_lt hp]
  have hlt : ∀ q : Nat, q / n < L / n + (if q % n < L % n then 1 else 0) ↔ q < L := by
    intro q
    have h1 := Nat.div_add_mod q n
    have h2 := Nat.div_add_mod L n
    have h3 := Nat.mod_lt q hn
    have h4 := Nat.mod_lt L hn
    rcases Nat.lt_trichotomy (q / n) (L / n) with h5 | h5 | h5
    · have := Nat.mul_le_mul_left n h5
      rw [Nat.mul_succ] at this
      constructor <;> intro <;> omega
    · rw [h5] at h1 ⊢
      split <;> omega
    · have := Nat.mul_le_mul_left n h5
      rw [Nat.mul_succ] at this
      split <;> omega
  have hout : ∀ q, answers (turns n 0 (xs k)) (q % n) (q / n) = (xs k (q % n))[q / n]?.map (gotOf (q % n)) := by
    intro q
    unfold answers turns
    rw [hlog _ (Nat.mod_lt _ hn), List.getElem?_map]
  have hnone : ∀ q, L ≤ q → answers (turns n 0 (xs k)) (q % n) (q / n) = none := by
    intro q hq
    rw [hout, List.getElem?_eq_none, Option.map_none]
    rw [hL _ (Nat.mod_lt _ hn)]
    have := (hlt q).not.2 (by omega)
    omega
  have hsome : ∀ q, q < L → ∃ x, (xs k (q % n))[q / n]? = some x ∧ answers (turns n 0 (xs k)) (q % n) (q / n) = some (gotOf (q % n) x) := by
    intro q hq
    have h1 := (hlt q).2 hq
    rw [← hL _ (Nat.mod_lt _ hn)] at h1
    exact ⟨_, List.getElem?_eq_getElem h1, by rw [hout, List.getElem?_eq_getElem h1]; rfl⟩
  choose g hg1 hg2 using hsome
  have hKL : L ≤ K * n := by
    by_contra hc
    have h1 : K * n < L := by omega
    have h2 := hg2 (K * n) h1
    rw [Nat.mul_div_cancel _ hn, Nat.mul_mod_left, hK 0 hn] at h2
    cases h2
  have hlist : past[k] = (List.range L).pmap (fun q hq => gotOf (q % n) (g q hq)) (fun q hq => List.mem_range.1 hq) := by
    rw [e, got, hh, ← upto_rounds, upto]
    obtain ⟨d, hd⟩ := Nat.exists_eq_add_of_le hKL
    rw [hd, List.range_add, List.filterMap_append, List.map_append]
    have e2 : ((List.range d).map (L + ·)).filterMap (fun q => (answers (turns n 0 (xs k)) (q % n) (q / n)).map fun x => (q % n, x)) = [] := by
      rw [List.filterMap_eq_nil_iff]
      intro q hq
      obtain ⟨e, _, rfl⟩ := List.mem_map.1 hq
      rw [hnone _ (by omega)]
      rfl
    rw [e2, List.map_nil, List.append_nil, List.map_filterMap]
    have e3 : ∀ l : List Nat, ∀ hl : ∀ q ∈ l, q < L, l.filterMap (fun q => ((answers (turns n 0 (xs k)) (q % n) (q / n)).map fun x => (q % n, x)).map (·.2)) =
        l.pmap (fun q hq => gotOf (q % n) (g q hq)) hl := by
      intro l hl
      induction l with
      | nil => rfl
      | cons q l ih =>
        rw [List.filterMap_cons, hg2 q (hl q (by simp))]
        simp only [Option.map_some, List.pmap_cons]
        rw [ih]
    exact e3 _ _
  have hlen : past[k].length = L := by rw [hlist]; simp
  refine ⟨hlen, fun q hq => ⟨g q (by omega), hg1 q (by omega), ?_⟩⟩
  simp only [hlist, List.getElem_pmap, List.getElem_range]

/-- **C122, whole loader: with which worker a loop begins.** The first process of each loop is process 0. It is worker 0 in a new loader; in a loader restored with next worker `off` it is worker `n - off`, in all loops. -/
theorem C122_loader_first (hn : 0 < n) (hD : ∀ w < n, (D w).ResumesUpToEnd) (hE : ∀ w < n, ResumesBehindEnd (D w)) (hr : ∀ w < n, PassRun (D w) (f w) (ends w) (st w) (fn w))
    (h : LIncP n rank D us cs off) (hl : LifeP n rank D us off cfg T xs past s) (k : Nat) (hk : k < past.length) : past[k].head?.map (·.worker) = some ((n - off) % n) := by
  have hw : logical n off 0 < n := logical_lt hn
  have hpass := C122_loader_passes hn hD hE hr h hl hw k
  obtain ⟨t, ht, hf, e⟩ := hl.loops k hk
  obtain ⟨K, hK, hh⟩ := C35_complete hn (answers_sticky _) ht hf
  obtain ⟨x, l, hx⟩ := List.exists_cons_of_length_pos hpass.pos
  have h0 : answers (turns n off (xs k)) 0 0 = some (gotOf (logical n off 0) x) := by
    unfold answers turns
    rw [hx]
    rfl
  have hK0 : 0 < K := by
    rcases Nat.eq_zero_or_pos K with h1 | h1
    · have := hK 0 hn
      rw [h1, h0] at this
      cases this
    · exact h1
  rw [e, got, hh, ← upto_rounds, upto]
  obtain ⟨d, hd⟩ := Nat.exists_eq_succ_of_ne_zero (Nat.ne_of_gt (Nat.mul_pos hK0 hn))
  rw [hd, Nat.succ_eq_add_one, Nat.add_comm, List.range_add, List.filterMap_append]
  have e1 : (List.range 1).filterMap (fun q => (answers (turns n off (xs k)) (q % n) (q / n)).map fun x => (q % n, x)) = [(0, gotOf (logical n off 0) x)] := by
    rw [show List.range 1 = [0] from rfl, List.filterMap_cons, Nat.zero_mod, Nat.zero_div, h0]
    rfl
  rw [e1]
  show some (logical n off 0) = _
  rw [logical_eq, Nat.zero_add]

theorem reach_congr {α : Type} {n : Nat} {out out' : Nat → Nat → Option α} (h : ∀ w < n, out w = out' w) {s : Sys α} (hr : Reach n out s) : Reach n out' s := by
  induction hr with
  | start => exact .start
  | step _ hs ih =>
    refine .step ih ?_
    cases hs with
    | work h1 h2 h3 => rw [h _ h1]; exact .work h1 h2 h3
    | discard h1 h2 h3 => exact .discard h1 h2 h3
    | call h1 => exact .call h1
    | drop h1 h2 h3 => exact .drop h1 h2 h3
    | finish h1 h2 => exact .finish h1 h2
    | «have» h1 h2 => exact .have h1 h2
    | recvStop h1 h2 h3 h4 => exact .recvStop h1 h2 h3 h4
    | recvNow h1 h2 h3 h4 => exact .recvNow h1 h2 h3 h4
    | recvLater h1 h2 h3 h4 h5 => exact .recvLater h1 h2 h3 h4 h5

/-- Two workers, three batches delivered, with lazy processes -/
theorem reach_three (a b : Nat → Nat × Smp C) : ∃ s, Reach 2 (answers (turns 2 0 fun w => [a w, b w])) s ∧ s.phase = .idle ∧ got s = [gotOf 0 (a 0), gotOf 1 (a 1), gotOf 0 (b 0)] ∧
    answeredP 2 0 s 0 = 2 ∧ answeredP 2 0 s 1 = 1 := by
  have h1 := (Reach.start (n := 2) (out := answers (turns 2 0 fun w => [a w, b w]))).step (.call rfl)
  have h2 := h1.step (.work (w := 0) (q := 0) (l := [2]) (by decide) (by with_unfolding_all rfl) (by with_unfolding_all rfl))
  have h3 := h2.step (.recvNow (q := 0) (a := gotOf 0 (a 0)) (res := []) (by with_unfolding_all rfl) (by with_unfolding_all rfl) (by with_unfolding_all rfl) (by with_unfolding_all rfl))
  have h4 := h3.step (.call (by with_unfolding_all rfl))
  have h5 := h4.step (.work (w := 1) (q := 1) (l := [3]) (by decide) (by with_unfolding_all rfl) (by with_unfolding_all rfl))
  have h6 := h5.step (.recvNow (q := 1) (a := gotOf 1 (a 1)) (res := []) (by with_unfolding_all rfl) (by with_unfolding_all rfl) (by with_unfolding_all rfl) (by with_unfolding_all rfl))
  have h7 := h6.step (.call (by with_unfolding_all rfl))
  have h8 := h7.step (.work (w := 0) (q := 2) (l := [4]) (by decide) (by with_unfolding_all rfl) (by with_unfolding_all rfl))
  have h9 := h8.step (.recvNow (q := 2) (a := gotOf 0 (b 0)) (res := []) (by with_unfolding_all rfl) (by with_unfolding_all rfl) (by with_unfolding_all rfl) (by with_unfolding_all rfl))
  exact ⟨_, h9, (by with_unfolding_all rfl), (by with_unfolding_all rfl), (by with_unfolding_all rfl), (by with_unfolding_all rfl)⟩

end

end Verif.Loader
