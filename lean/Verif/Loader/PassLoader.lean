import Verif.Loader.PassResume

/-!
# C123: saving and resuming the whole loader over several passes

The worker of `PassResume`, in the loader of C122 (`EpochLoader`).
-/

namespace Verif.Loader

open Verif.Stream

variable {σ κ C : Type}

section
variable {n rank : Nat} {D : Nat → Dataset σ (Smp C) κ} {f : Nat → Nat → Smp C} {ends : Nat → Nat → Bool} {st fn : Nat → Nat → σ} {us : Nat → σ × WAttr κ} {cs : Nat → Nat} {off : Nat} {cfg : Nat → Cfg}
  {T : Nat → Nat → Nat → σ × WAttr κ} {xs : Nat → Nat → List (Nat × Smp C)} {past : List (List (Got C))} {s : Sys (Got C)}

/-! ### Proofs -/

/-- The same life, with the other datasets -/
theorem LifeP.skip {us' : Nat → σ × WAttr κ} (hu : ∀ w < n, us w = us' w) (h : LifeP n rank D us off cfg T xs past s) : LifeP n rank (fun w => skipEnd (D w)) us' off cfg T xs past s :=
  ⟨fun w hw => (h.start w hw).trans (hu w hw), h.answer, h.fin, h.loops, h.reach⟩

theorem LifeP.unskip {us' : Nat → σ × WAttr κ} (hu : ∀ w < n, us' w = us w) (h : LifeP n rank (fun w => skipEnd (D w)) us' off cfg T xs past s) : LifeP n rank D us off cfg T xs past s :=
  ⟨fun w hw => (h.start w hw).trans (hu w hw), h.answer, h.fin, h.loops, h.reach⟩

/-- A history with `D` is one with `skipEnd`. -/
theorem LIncV.inc (hn : 0 < n) (hD : ∀ w < n, (D w).ResumesUpToEnd) (hr : ∀ w < n, PassRun (D w) (f w) (ends w) (st w) (fn w)) (h : LIncV n rank D us cs off) :
    (∀ w < n, IncV (D w) (ends w) (rank * n + w) (us w) (cs w)) ∧ ∃ us', LIncP n rank (fun w => skipEnd (D w)) us' cs off ∧ ∀ w < n, us w = us' w := by
  have hD' : ∀ w < n, (skipEnd (D w)).ResumesUpToEnd := fun w hw => skipEnd_upToEnd (hD w hw) (hr w hw)
  have hE' : ∀ w < n, ResumesBehindEnd (skipEnd (D w)) := fun w hw => skipEnd_behind (hD w hw) (hr w hw)
  have hr' : ∀ w < n, PassRun (skipEnd (D w)) (f w) (ends w) (st w) (fn w) := fun w hw => skipEnd_run (hr w hw)
  induction h with
  | new => exact ⟨fun w _ => .fresh, _, .new, fun w _ => rfl⟩
  | @restored us cs off cfg T xs past s k _ hcfg hl hidle hpos hcond hsave ih =>
    obtain ⟨hV, us', hP, hagree⟩ := ih
    have hl' := hl.skip hagree
    have hP' : LIncP n rank (fun w => skipEnd (D w)) (fun w => wresume (skipEnd (D w)) (k.workers w)) (fun w => cs w + (fromWorker w (delivered past s)).length) k.next :=
      .restored hP hcfg hl' hidle hpos hsave
    obtain ⟨hoff, hinc⟩ := hP.inc hn hD' hE' hr'
    have hfacts : ∀ w < n, ∃ (evs : List (Ev (Nat × Smp C))) (p : σ × WAttr κ), Does (D w) (cfg w) (rank * n + w) (us w) evs p ∧ cs w < cs w + (fromWorker w (delivered past s)).length ∧
        cs w + (fromWorker w (delivered past s)).length ≤ cs w + (itemsOf evs).length ∧
        (ends w (cs w + (fromWorker w (delivered past s)).length) = true → cs w + (fromWorker w (delivered past s)).length = cs w + (itemsOf evs).length → ∃ evs', evs = evs' ++ [.fin]) ∧
        getCheckpoint p.2 (cs w + (fromWorker w (delivered past s)).length - 1) = some (k.workers w) := by
      unfold saveP saveLoader at hsave
      split at hsave
      · next hall =>
        simp only [Option.map_some, Option.some.injEq] at hsave
        subst hsave
        intro w hw
        have h4 := hpos w hw
        obtain ⟨p, h5, h6⟩ := hl.soFar hw past.length (answeredP n off s w)
        obtain ⟨-, h7⟩ := hl.fromW hoff hw
        obtain ⟨-, h8, h9, -⟩ := turn_facts hoff hw hl.reach
        have hlen := soFar_length xs past.length w (answeredP n off s w)
        have hcount := hl'.noted hD' hE' hr' hinc hoff hw h4
        refine ⟨_, p, h5, by omega, by rw [hlen]; omega, ?_, ?_⟩
        · intro he hc
          rw [hlen] at hc
          rcases Nat.lt_or_ge (xs past.length w).length (answeredP n off s w) with h10 | h10
          · -- the end has been answered
            refine ⟨evsP xs w past.length ++ (xs past.length w).map .item, ?_⟩
            unfold Loader.soFar
            rw [if_neg (by omega), evsP_succ, List.append_assoc]
          · have h11 : (fromWorker w (got s)).length = answeredP n off s w := by omega
            have h12 : (fromWorker w (got s)).length ≠ (xs past.length w).length := fun e => by
              have := hcond w hw e
              omega
            rcases Nat.eq_zero_or_pos (answeredP n off s w) with h13 | h13
            · rcases Nat.eq_zero_or_pos past.length with h14 | h14
              · exfalso
                rw [h14, show inLoops xs w 0 = 0 from rfl] at h7
                omega
              · obtain ⟨K, hK⟩ := Nat.exists_eq_succ_of_ne_zero (Nat.pos_iff_ne_zero.1 h14)
                refine ⟨evsP xs w K ++ (xs K w).map .item, ?_⟩
                unfold Loader.soFar
                rw [if_pos h10, h13, List.take_zero, List.map_nil, List.append_nil, hK, evsP_succ, List.append_assoc]
            · exfalso
              have hpass := (hl'.passes hD' hE' hr' hinc hw past.length).2
              have := hpass.before (fromWorker w (got s)).length (by omega) (by omega)
              rw [h7, ← Nat.add_assoc, this] at he
              cases he
        · rw [h6, ← hcount]
          have := List.all_eq_true.1 hall w (List.mem_range.2 hw)
          obtain ⟨x, hx⟩ := Option.isSome_iff_exists.1 this
          simp only [hx, Option.getD_some]
      · simp at hsave
    refine ⟨fun w hw => ?_, _, hP', fun w hw => ?_⟩
    · obtain ⟨evs, p, h1, h2, h3, h4, h5⟩ := hfacts w hw
      exact .restored (hV w hw) h1 h2 h3 h4 h5
    · obtain ⟨evs, p, h1, h2, h3, h4, h5⟩ := hfacts w hw
      have h6 := (hV w hw).inc (hD w hw) (hr w hw)
      exact resume_same (hD w hw) (hr w hw) h6.1 h6.2 h1 h2 h3 h4 h5

end

/-! ### The property -/

section
variable {n rank : Nat} {D : Nat → Dataset σ (Smp C) κ} {f : Nat → Nat → Smp C} {ends : Nat → Nat → Bool} {st fn : Nat → Nat → σ} {us : Nat → σ × WAttr κ} {cs : Nat → Nat} {off : Nat} {cfg : Nat → Cfg}
  {T : Nat → Nat → Nat → σ × WAttr κ} {xs : Nat → Nat → List (Nat × Smp C)} {past : List (List (Got C))} {s : Sys (Got C)}

/-- **C123, whole loader.** For datasets that resume exactly or up to the end of a pass, after any number of saves and restores, each in any loop or between two loops (not while the user has all samples of a worker and the worker has not
answered with the end):

- any number of loops can be made;
- in each, a worker hands in exactly the samples from the first one that has not been delivered up to the next end of a pass of the uninterrupted run;
- what has been delivered from each worker, in all loops, is exactly the continuation of its uninterrupted run;
- the state can be saved, if something has been delivered from each worker in this life, and from a worker that has reported the end everything.

Missing: saving in the other moments (`C123_violated_timing`, `C37_violated_end`). -/
theorem C123_loader_partial (hn : 0 < n) (hD : ∀ w < n, (D w).ResumesUpToEnd) (hr : ∀ w < n, PassRun (D w) (f w) (ends w) (st w) (fn w)) (hinf : ∀ w < n, ∀ c, ∃ j > c, ends w j = true)
    (h : LIncV n rank D us cs off) (cfg : Nat → Cfg) :
    (∃ T xs, LifeP n rank D us off cfg T xs [] (start (Got C) n)) ∧
    ∀ T xs past s, LifeP n rank D us off cfg T xs past s →
      Ends n (answers (turns n off (xs past.length))) ∧
      (∀ w < n, ∀ k, PassFrom (f w) (ends w) (rank * n + w) (cs w + inLoops xs w k) (xs k w)) ∧
      (∀ w < n, fromWorker w (delivered past s) = (List.range (fromWorker w (delivered past s)).length).map fun i =>
        ⟨w, cs w + i, (f w (cs w + i)).addKey (loaderKey (rank * n + w) (cs w + i))⟩) ∧
      (∀ k (hk : k < past.length), (∃ K, past[k] = (rounds n (answers (turns n off (xs k))) K).map (·.2)) ∧ ∀ w < n, fromWorker w past[k] = (xs k w).map (gotOf w)) ∧
      ((∀ w < n, 2 ≤ (cfg w).keep ∧ 2 * n ≤ (cfg w).minN) → (∀ w < n, 0 < (fromWorker w (delivered past s)).length) →
        (∀ w < n, (xs past.length w).length < answeredP n off s w → (fromWorker w (got s)).length = (xs past.length w).length) →
        ∃ k, saveP n (fun w => attrsP T xs past.length w (answeredP n off s w)) past s = some k) := by
  have hD' : ∀ w < n, (skipEnd (D w)).ResumesUpToEnd := fun w hw => skipEnd_upToEnd (hD w hw) (hr w hw)
  have hE' : ∀ w < n, ResumesBehindEnd (skipEnd (D w)) := fun w hw => skipEnd_behind (hD w hw) (hr w hw)
  have hr' : ∀ w < n, PassRun (skipEnd (D w)) (f w) (ends w) (st w) (fn w) := fun w hw => skipEnd_run (hr w hw)
  obtain ⟨-, us', hP, hagree⟩ := h.inc hn hD hr
  constructor
  · obtain ⟨T, xs, hl⟩ := C122_loader_goes_on hn hD' hE' hr' hinf hP cfg
    exact ⟨T, xs, hl.unskip fun w hw => (hagree w hw).symm⟩
  · intro T xs past s hl
    have hl' := hl.skip hagree
    refine ⟨(C35_loop hn _).1, fun w hw k => C122_loader_passes hn hD' hE' hr' hP hl' hw k, fun w hw => C122_loader_streams hn hD' hE' hr' hP hl' hw,
      (C122_loader_order hn hD' hE' hr' hP hl').1, fun hcfg hpos hend => C122_loader_saved_partial hn hD' hE' hr' hP hcfg hl' hpos hend⟩

/-- Behind the end of a loop every worker has answered with the end of its pass. -/
theorem finished_answered (hoff : off < n) {w : Nat} (hw : w < n) {ys : Nat → List (Nat × Smp C)} (h : Reach n (answers (turns n off ys)) s) (hf : s.phase = .finished) :
    (ys w).length < answeredP n off s w := by
  have hn : 0 < n := by omega
  have hs := answers_sticky (turns n off ys)
  have hp : process n off w < n := Nat.mod_lt _ hn
  obtain ⟨got', low, hg⟩ := h.good hn hs
  obtain ⟨j, h1, h2, -⟩ := hg.inv.ended _ hp (hg.inv.inact _ hp (finished_inactive hn hs h hf _ hp)).1
  unfold answers turns at h2
  rw [logical_process hoff hw, List.getElem?_eq_none_iff, List.length_map] at h2
  show (ys w).length < (s.procs (process n off w)).made
  omega

/-- A loop can be carried out to its end. -/
theorem ends_finished {α : Type} {n : Nat} {out : Nat → Nat → Option α} (h : Ends n out) : ∃ s, Reach n out s ∧ s.phase = .finished := by
  by_contra hno
  have hall : ∀ s, Reach n out s → s.phase ≠ .finished := fun s hs hf => hno ⟨s, hs, hf⟩
  refine h.2 ?_
  choose g hg using fun p : {s // Reach n out s} => h.1 p.1 p.2 (hall p.1 p.2)
  let next : {s // Reach n out s} → {s // Reach n out s} := fun p => ⟨g p, .step p.2 (hg p)⟩
  let F : Nat → {s // Reach n out s} := fun k => Nat.rec ⟨_, .start⟩ (fun _ => next) k
  exact ⟨fun k => (F k).1, rfl, fun k => hg (F k)⟩

/-- **C123, behind the end of a loop** the state can always be saved, and this is one of the histories; the next loop after restoring begins with worker 0. -/
theorem C123_loader_between (hn : 0 < n) (hD : ∀ w < n, (D w).ResumesUpToEnd) (hr : ∀ w < n, PassRun (D w) (f w) (ends w) (st w) (fn w))
    (h : LIncV n rank D us cs off) (hcfg : ∀ w < n, 2 ≤ (cfg w).keep ∧ 2 * n ≤ (cfg w).minN) (hl : LifeP n rank D us off cfg T xs past s) (hf : s.phase = .finished) :
    ∃ k, saveP n (fun w => attrsP T xs past.length w (answeredP n off s w)) past s = some k ∧
      LIncV n rank D (fun w => wresume (D w) (k.workers w)) (fun w => cs w + (fromWorker w (delivered past s)).length) 0 ∧
      ∀ w < n, ends w (cs w + (fromWorker w (delivered past s)).length) = true := by
  have hD' : ∀ w < n, (skipEnd (D w)).ResumesUpToEnd := fun w hw => skipEnd_upToEnd (hD w hw) (hr w hw)
  have hE' : ∀ w < n, ResumesBehindEnd (skipEnd (D w)) := fun w hw => skipEnd_behind (hD w hw) (hr w hw)
  have hr' : ∀ w < n, PassRun (skipEnd (D w)) (f w) (ends w) (st w) (fn w) := fun w hw => skipEnd_run (hr w hw)
  obtain ⟨-, us', hP, hagree⟩ := h.inc hn hD hr
  have hl' := hl.skip hagree
  obtain ⟨hoff, -⟩ := hP.inc hn hD' hE' hr'
  have hpass := fun w (hw : w < n) k => C122_loader_passes hn hD' hE' hr' hP hl' hw k
  have hlen : ∀ w < n, (fromWorker w (got s)).length = (xs past.length w).length := fun w hw => (turn_facts hoff hw hl.reach).2.2.2.2 hf
  have hdel : ∀ w < n, (fromWorker w (delivered past s)).length = inLoops xs w past.length + (xs past.length w).length := fun w hw => by rw [(hl.fromW hoff hw).2, hlen w hw]
  have hpos : ∀ w < n, 0 < (fromWorker w (delivered past s)).length := fun w hw => by
    rw [hdel w hw]
    have := (hpass w hw past.length).pos
    omega
  obtain ⟨k, hk⟩ := C122_loader_saved_partial hn hD' hE' hr' hP hcfg hl' hpos (fun w hw _ => hlen w hw)
  have hnext : k.next = 0 := by
    unfold saveP at hk
    obtain ⟨k', -, h6⟩ := Option.map_eq_some_iff.1 hk
    subst h6
    show nextP n s = 0
    unfold nextP
    rw [hf]
  refine ⟨k, hk, ?_, fun w hw => ?_⟩
  · have := LIncV.restored h hcfg hl (by rw [hf]; decide) hpos (fun w hw _ => finished_answered hoff hw hl.reach hf) hk
    rw [hnext] at this
    exact this
  · rw [hdel w hw, ← Nat.add_assoc]
    exact (hpass w hw past.length).last

end

end Verif.Loader
