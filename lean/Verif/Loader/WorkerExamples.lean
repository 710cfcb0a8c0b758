import Verif.Loader.WorkerProps

/-! # C36, C37: concrete cases, and the histories for which the claims fail -/

namespace Verif.Loader

open Verif.Stream

variable {σ κ C : Type}

/-- The next answer of a worker, found within `fuel` small steps. -/
def wnext (D : Dataset σ (Smp C) κ) (cfg : Cfg) (gid : Nat) : Nat → σ × WAttr κ → Option ((Nat × Smp C) × (σ × WAttr κ))
  | 0, _ => none
  | fuel + 1, p =>
    match wstep D cfg gid p with
    | .yield b q => some (b, q)
    | .skip q => wnext D cfg gid fuel q
    | _ => none

theorem wnext_obs {D : Dataset σ (Smp C) κ} {cfg : Cfg} {gid fuel : Nat} {p q : σ × WAttr κ} {b : Nat × Smp C}
    (h : wnext D cfg gid fuel p = some (b, q)) : Obs (wstep D cfg gid) p (.item b q) := by
  induction fuel generalizing p with
  | zero => cases h
  | succ fuel ih =>
    simp only [wnext] at h
    split at h
    · next he => cases h; exact .item he
    · next he => exact .skip he (ih h)
    · cases h

/-- The datasets of two workers, which deliver `0, 1, 2, ...` and `100, 101, ...`. -/
def exD (w : Nat) : Dataset Nat (Smp Nat) Nat := streamD fun i => 100 * w + i

def exCfg (n : Nat) : Cfg := ⟨2 * n, 2, fun i => i % 3 = 0⟩

/-- The states and answers of worker `w` of `n`, when started with `us w`. -/
def exS (n : Nat) (us : Nat → Nat × WAttr Nat) (w : Nat) : Nat → Nat × WAttr Nat
  | 0 => us w
  | i + 1 => ((wnext (exD w) (exCfg n) w 100 (exS n us w i)).map (·.2)).getD (us w)

def exG (n : Nat) (us : Nat → Nat × WAttr Nat) (w i : Nat) : Nat × Smp Nat :=
  ((wnext (exD w) (exCfg n) w 100 (exS n us w i)).map (·.1)).getD (0, ⟨0, []⟩)

theorem wnext_skip {D : Dataset σ (Smp C) κ} {cfg : Cfg} {gid fuel : Nat} {p q : σ × WAttr κ}
    (h : wstep D cfg gid p = .skip q) : wnext D cfg gid (fuel + 1) p = wnext D cfg gid fuel q := by
  simp only [wnext, h]

theorem exD_step (w i : Nat) : (exD w).step i = .yield ⟨100 * w + i, [.num i]⟩ (i + 1) := rfl

theorem wnext_some {w n : Nat} (p : Nat × WAttr Nat) (h : p.2.skip < 90) :
    ∃ b q, wnext (exD w) (exCfg n) w 100 p = some (b, q) ∧ q.2.skip = 0 := by
  have key : ∀ (k : Nat) (s : Nat) (x : WAttr Nat) (lws has : Bool) (fuel : Nat), x.skip = k → x.ctl = .run lws has → k < fuel →
      ∃ b q, wnext (exD w) (exCfg n) w fuel (s, x) = some (b, q) ∧ q.2.skip = 0 := by
    intro k
    induction k with
    | zero =>
      intro s x lws has fuel hs hx hf
      obtain ⟨fuel, rfl⟩ := Nat.exists_eq_succ_of_ne_zero (by omega : fuel ≠ 0)
      have h1 : wstep (exD w) (exCfg n) w (s, x) = .yield (x.idx, (⟨100 * w + s, [.num s]⟩ : Smp Nat).addKey (loaderKey w x.idx))
          (s + 1, store (exCfg n) false (s + 1) { x with idx := x.idx + 1, ctl := .run false true }) := by
        simp only [wstep, hx, exD_step, hs, Nat.lt_irrefl, if_false]; rfl
      refine ⟨_, _, by simp only [wnext, h1]; rfl, ?_⟩
      simp only [(store_idx _ _ _).2.1, hs]
    | succ k ih =>
      intro s x lws has fuel hs hx hf
      obtain ⟨fuel, rfl⟩ := Nat.exists_eq_succ_of_ne_zero (by omega : fuel ≠ 0)
      obtain ⟨b, q, h1, h2⟩ := ih (s + 1) { x with skip := x.skip - 1, idx := x.idx + 1, ctl := .run true true } true true fuel
        (by simp [hs]) rfl (by omega)
      refine ⟨b, q, ?_, h2⟩
      have h3 : wstep (exD w) (exCfg n) w (s, x) =
          .skip (s + 1, { x with skip := x.skip - 1, idx := x.idx + 1, ctl := .run true true }) := by
        simp only [wstep, hx, exD_step, hs, Nat.succ_pos, if_true]
      simp only [wnext, h3, h1]
  obtain ⟨s, x⟩ := p
  cases hc : x.ctl with
  | fresh =>
    obtain ⟨b, q, h1, h2⟩ := key x.skip s { x with ctl := .run true false } true false 99 rfl rfl (by simp only at h; omega)
    refine ⟨b, q, ?_, h2⟩
    have h3 : wstep (exD w) (exCfg n) w (s, x) = .skip (s, { x with ctl := .run true false }) := by
      simp only [wstep, hc]
    rw [show (100 : Nat) = 99 + 1 from rfl, wnext_skip h3, h1]
  | run lws has => exact key x.skip s x lws has 100 rfl hc (by simp only at h; omega)

theorem exS_skip {n w : Nat} {us : Nat → Nat × WAttr Nat} (h : (us w).2.skip < 90) (i : Nat) : (exS n us w i).2.skip < 90 := by
  induction i with
  | zero => exact h
  | succ i ih =>
    obtain ⟨b, q, h1, h2⟩ := wnext_some (w := w) (n := n) _ ih
    simp only [exS, h1, Option.map_some, Option.getD_some, h2]
    omega

theorem ex_answer {n w : Nat} {us : Nat → Nat × WAttr Nat} (h : (us w).2.skip < 90) (i : Nat) :
    Obs (wstep (exD w) (exCfg n) w) (exS n us w i) (.item (exG n us w i) (exS n us w (i + 1))) := by
  obtain ⟨b, q, h1, -⟩ := wnext_some (w := w) (n := n) _ (exS_skip (n := n) h i)
  simp only [exG, exS, h1, Option.map_some, Option.getD_some]
  exact wnext_obs h1

/-- The iterator of this loader after `t` steps of the scheduler `tick`. -/
def exSys (n : Nat) (us : Nat → Nat × WAttr Nat) (off t : Nat) : Sys (Got Nat) :=
  ticks n (fun p i => some ⟨logical n off p, (exG n us (logical n off p) i).1, (exG n us (logical n off p) i).2⟩) t

theorem ex_life {n off : Nat} {us : Nat → Nat × WAttr Nat} (h : ∀ w < n, (us w).2.skip < 90) (t : Nat) :
    Life n 0 exD us off (fun _ => exCfg n) (exS n us) (exG n us) (exSys n us off t) := by
  refine ⟨fun _ _ => rfl, fun w hw i => ?_, ticks_reach t⟩
  rw [Nat.zero_mul, Nat.zero_add]
  exact ex_answer (h w hw) i

theorem ex_stream (w : Nat) : Stream (exD w) (fun i => ⟨100 * w + i, [.num i]⟩) :=
  fun _ => ⟨fun i => i, ⟨rfl, fun _ _ => .item rfl⟩⟩

def exNew (w : Nat) : Nat × WAttr Nat := wfresh (exD w)

/-- A loader with two workers from which five samples have been read when it is saved, with prefetching: the hypotheses of the theorems on whole
loaders are met. -/
theorem ex_linc : ∃ us : Nat → Nat × WAttr Nat, ∃ cs : Nat → Nat, LInc 2 0 exD (fun _ => True) us cs 1 ∧ cs 0 = 3 ∧ cs 1 = 2 := by
  have hcfg : ∀ w < 2, 2 ≤ (exCfg 2).keep ∧ 2 * 2 ≤ (exCfg 2).minN := fun _ _ => ⟨Nat.le_refl _, Nat.le_refl _⟩
  have hl := ex_life (n := 2) (off := 0) (us := exNew) (fun _ _ => Nat.zero_lt_succ _) 21
  have h1 : ((exSys 2 exNew 0 21).phase = .idle ∧ deliveredFrom (exSys 2 exNew 0 21) 0 = 3 ∧
      deliveredFrom (exSys 2 exNew 0 21) 1 = 2 ∧ nextWorker 2 (got (exSys 2 exNew 0 21)) = 1) := by decide +kernel
  have hpos : ∀ w < 2, 0 < deliveredFrom (exSys 2 exNew 0 21) w := by
    intro w hw
    match w, hw with
    | 0, _ => omega
    | 1, _ => omega
  obtain ⟨k, hk⟩ := C36_save_possible_partial (by omega) (fun w _ => streamD_resumes _ _) (fun w _ => ex_stream w)
    (.new (ok := fun _ => True)) hcfg hl hpos
  have := LInc.restored .new hcfg hl h1.1 hpos hk (ok := fun _ => True) trivial
  have hnext : k.next = 1 := by
    unfold saveLoader at hk
    split at hk
    · cases hk; exact h1.2.2.2
    · cases hk
  rw [hnext] at this
  exact ⟨_, _, this, by simp [h1], by simp [h1]⟩

/-- The samples of the two workers restored from it. -/
example {cs : Nat → Nat} {us : Nat → Nat × WAttr Nat} (h : LInc 2 0 exD (fun _ => True) us cs 1) {cfg : Nat → Cfg}
    (hcfg : ∀ w < 2, 2 ≤ (cfg w).keep ∧ 2 * 2 ≤ (cfg w).minN) {S : Nat → Nat → Nat × WAttr Nat}
    {g : Nat → Nat → Nat × Smp Nat} {s : Sys (Got Nat)} (hl : Life 2 0 exD us 1 cfg S g s) :=
  C36_two_workers_partial (by omega) (Nat.le_refl _) (fun _ _ => streamD_resumes _ _) (fun w _ => ex_stream w) h hcfg hl

/-! ## C36 fails for three workers -/

def exUs (n t : Nat) (w : Nat) : Nat × WAttr Nat :=
  wresume (exD w) ((getCheckpoint (exS n exNew w ((exSys n exNew 0 t).procs (process n 0 w)).made).2
    (counter (got (exSys n exNew 0 t)) w)).getD ⟨none, 0, 0⟩)

theorem saveLoader_some {n : Nat} {ws : Nat → WAttr κ} {hist : List (Got C)} {k : LState κ} (h : saveLoader n ws hist = some k) :
    k.workers = (fun w => (getCheckpoint (ws w) (counter hist w)).getD ⟨none, 0, 0⟩) ∧ k.next = nextWorker n hist := by
  unfold saveLoader at h
  split at h
  · cases h; exact ⟨rfl, rfl⟩
  · cases h

/-- With three workers: four samples are delivered (workers 0, 1, 2, 0) and the loader is saved. The restored loader delivers a sample of
worker 2 first; the uninterrupted run continues with worker 1. -/
theorem C36_violated_three_workers : ∃ (us : Nat → Nat × WAttr Nat) (cs : Nat → Nat) (off : Nat) (cfg : Nat → Cfg)
    (S : Nat → Nat → Nat × WAttr Nat) (g : Nat → Nat → Nat × Smp Nat) (s : Sys (Got Nat)),
    LInc 3 0 exD (fun _ => True) us cs off ∧ (∀ w < 3, 2 ≤ (cfg w).keep ∧ 2 * 3 ≤ (cfg w).minN) ∧
    Life 3 0 exD us off cfg S g s ∧ ((List.range 3).map cs).sum = 4 ∧ (got s).length = 1 ∧
    got s ≠ (List.range (got s).length).map
      (fun q => uninterrupted 3 0 (fun w i => (⟨100 * w + i, [.num i]⟩ : Smp Nat)) (4 + q)) := by
  have hcfg : ∀ w < 3, 2 ≤ (exCfg 3).keep ∧ 2 * 3 ≤ (exCfg 3).minN := fun _ _ => ⟨Nat.le_refl _, Nat.le_refl _⟩
  have hl := ex_life (n := 3) (off := 0) (us := exNew) (fun _ _ => Nat.zero_lt_succ _) 21
  have h1 : ((exSys 3 exNew 0 21).phase = .idle ∧ (deliveredFrom (exSys 3 exNew 0 21) 0 = 2 ∧
      deliveredFrom (exSys 3 exNew 0 21) 1 = 1 ∧ deliveredFrom (exSys 3 exNew 0 21) 2 = 1) ∧
      nextWorker 3 (got (exSys 3 exNew 0 21)) = 1) := by decide +kernel
  have hpos : ∀ w < 3, 0 < deliveredFrom (exSys 3 exNew 0 21) w := by
    intro w hw
    match w, hw with
    | 0, _ => omega
    | 1, _ => omega
    | 2, _ => omega
  obtain ⟨k, hk⟩ := C36_save_possible_partial (by omega) (fun w _ => streamD_resumes _ _) (fun w _ => ex_stream w)
    (.new (ok := fun _ => True)) hcfg hl hpos
  have h2 := LInc.restored .new hcfg hl h1.1 hpos hk (ok := fun _ => True) trivial
  have hk2 : (fun w => wresume (exD w) (k.workers w)) = exUs 3 21 ∧ k.next = 1 := by
    obtain ⟨ha, hb⟩ := saveLoader_some hk
    rw [ha, hb]
    exact ⟨rfl, h1.2.2⟩
  rw [hk2.1, hk2.2] at h2
  have hl2 := ex_life (n := 3) (off := 1) (us := exUs 3 21) (by decide +kernel) 12
  refine ⟨_, _, _, _, _, _, _, h2, hcfg, hl2, ?_, by decide +kernel, ?_⟩
  · simp [List.range_succ, h1.2.1]
  · intro h
    have := congrArg (List.map Got.worker) h
    exact absurd this (by decide +kernel)

/-! ## C36 fails if a worker has not delivered a sample yet -/

/-- Two workers, one sample (of worker 0) is delivered and the loader is saved. The first sample of worker 1 is lost: the restored worker 1
begins with its second sample. -/
theorem C36_violated_early_save : ∃ (cfg : Nat → Cfg) (S : Nat → Nat → Nat × WAttr Nat) (g : Nat → Nat → Nat × Smp Nat)
    (s : Sys (Got Nat)) (k : LState Nat),
    (∀ w < 2, 2 ≤ (cfg w).keep ∧ 2 * 2 ≤ (cfg w).minN) ∧
    Life 2 0 exD (fun w => wfresh (exD w)) 0 cfg S g s ∧ s.phase = .idle ∧ (got s).map (·.worker) = [0] ∧
    saveLoader 2 (fun w => (S w (s.procs (process 2 0 w)).made).2) (got s) = some k ∧
    ∃ q, Obs (wstep (exD 1) (cfg 1) 1) (wresume (exD 1) (k.workers 1))
      (.item (1, (⟨101, [.num 1]⟩ : Smp Nat).addKey (loaderKey 1 1)) q) := by
  have hl := ex_life (n := 2) (off := 0) (us := exNew) (fun _ _ => Nat.zero_lt_succ _) 8
  refine ⟨_, _, _, _, _, fun _ _ => ⟨Nat.le_refl _, Nat.le_refl _⟩, hl, by decide +kernel, by decide +kernel, if_pos (by decide +kernel), ?_⟩
  have h : (wnext (exD 1) (exCfg 2) 1 100 (exUs 2 8 1)).map (·.1) =
      some (1, (⟨101, [.num 1]⟩ : Smp Nat).addKey (loaderKey 1 1)) := by decide +kernel
  cases h2 : wnext (exD 1) (exCfg 2) 1 100 (exUs 2 8 1) with
  | none => rw [h2] at h; cases h
  | some bq =>
    obtain ⟨b, q⟩ := bq
    rw [h2] at h
    simp only [Option.map_some, Option.some.injEq] at h
    subst h
    exact ⟨q, wnext_obs h2⟩

/-- Saving again soon after restoring raises an exception: the loader saved after twelve samples (of two workers) is restored, one sample is
delivered and `save_state` is called. -/
theorem C36_violated_second_save : ∃ (us : Nat → Nat × WAttr Nat) (cs : Nat → Nat) (off : Nat) (cfg : Nat → Cfg)
    (S : Nat → Nat → Nat × WAttr Nat) (g : Nat → Nat → Nat × Smp Nat) (s : Sys (Got Nat)),
    LInc 2 0 exD (fun _ => True) us cs off ∧ (∀ w < 2, 2 ≤ (cfg w).keep ∧ 2 * 2 ≤ (cfg w).minN) ∧
    Life 2 0 exD us off cfg S g s ∧ s.phase = .idle ∧ (got s).length = 1 ∧
    saveLoader 2 (fun w => (S w (s.procs (process 2 off w)).made).2) (got s) = none := by
  have hcfg : ∀ w < 2, 2 ≤ (exCfg 2).keep ∧ 2 * 2 ≤ (exCfg 2).minN := fun _ _ => ⟨Nat.le_refl _, Nat.le_refl _⟩
  have hl := ex_life (n := 2) (off := 0) (us := exNew) (fun _ _ => Nat.zero_lt_succ _) 41
  have h1 : ((exSys 2 exNew 0 41).phase = .idle ∧ (0 < deliveredFrom (exSys 2 exNew 0 41) 0 ∧
      0 < deliveredFrom (exSys 2 exNew 0 41) 1) ∧ nextWorker 2 (got (exSys 2 exNew 0 41)) = 0) := by decide +kernel
  have hpos : ∀ w < 2, 0 < deliveredFrom (exSys 2 exNew 0 41) w := by
    intro w hw
    match w, hw with
    | 0, _ => exact h1.2.1.1
    | 1, _ => exact h1.2.1.2
  obtain ⟨k, hk⟩ := C36_save_possible_partial (by omega) (fun w _ => streamD_resumes _ _) (fun w _ => ex_stream w)
    (.new (ok := fun _ => True)) hcfg hl hpos
  have h2 := LInc.restored .new hcfg hl h1.1 hpos hk (ok := fun _ => True) trivial
  have hk2 : (fun w => wresume (exD w) (k.workers w)) = exUs 2 41 ∧ k.next = 0 := by
    obtain ⟨ha, hb⟩ := saveLoader_some hk
    rw [ha, hb]
    exact ⟨rfl, h1.2.2⟩
  rw [hk2.1, hk2.2] at h2
  have hl2 := ex_life (n := 2) (off := 0) (us := exUs 2 41) (by decide +kernel) 8
  refine ⟨_, _, _, _, _, _, _, h2, hcfg, hl2, by decide +kernel, by decide +kernel, ?_⟩
  exact if_neg (by decide +kernel)

/-! ## The end of a pass -/

/-- C37 fails at the end of a pass: one worker, three samples, two delivered, the worker has reached the end of its pass and
its timer has fired. There is no checkpoint to resume from: `save_state` raises an exception. -/
theorem C37_violated_end : ∃ (cfg : Cfg) (xs : List (Nat × Smp Nat)) (p p' : Nat × WAttr Nat),
    2 ≤ cfg.keep ∧ 2 * 1 ≤ cfg.minN ∧ Outs (listD [7, 8, 9]) cfg 0 (wfresh (listD [7, 8, 9])) xs p ∧ xs.length = 3 ∧
    Obs (wstep (listD [7, 8, 9]) cfg 0) p (.fin p') ∧ getCheckpoint p'.2 1 = none := by
  refine ⟨⟨2, 2, fun _ => true⟩, [(0, ⟨7, loaderKey 0 0 ++ [.num 0]⟩), (1, ⟨8, loaderKey 0 1 ++ [.num 1]⟩), (2, ⟨9, loaderKey 0 2 ++ [.num 2]⟩)],
    (3, ⟨3, 0, [⟨some 1, 1⟩, ⟨some 3, 3⟩], .run false true⟩), (0, ⟨3, 0, [⟨some 3, 3⟩, ⟨some 0, 3⟩], .fresh⟩),
    Nat.le_refl _, Nat.le_refl _, ?_, rfl, .fin rfl, rfl⟩
  exact .next (xs := [_, _]) (p := (2, ⟨2, 0, [⟨none, 0⟩, ⟨some 1, 1⟩], .run false true⟩))
    (.next (xs := [_]) (p := (1, ⟨1, 0, [⟨none, 0⟩, ⟨some 1, 1⟩], .run false true⟩))
      (.next (xs := []) .nil (.skip rfl (.item rfl))) (.item rfl)) (.item rfl)

/-- Saving after the last sample of a pass: the end of the pass is not reported any more, the restored worker begins with the next
pass at once. -/
theorem C36_violated_end : ∃ (u : Nat × WAttr Nat), Inc (listD [7, 8, 9]) 0 2 3 u 3 ∧
    ∃ q, Obs (wstep (listD [7, 8, 9]) ⟨2, 2, fun _ => false⟩ 0) u (.item (3, ⟨7, loaderKey 0 3 ++ [.num 0]⟩) q) := by
  refine ⟨_, .restored (c := 0) (c' := 3) (cfg := ⟨2, 2, fun _ => false⟩) (p := (3, ⟨3, 0, [⟨none, 0⟩, ⟨some 1, 1⟩], .run false true⟩))
    (xs := [(0, ⟨7, loaderKey 0 0 ++ [.num 0]⟩), (1, ⟨8, loaderKey 0 1 ++ [.num 1]⟩), (2, ⟨9, loaderKey 0 2 ++ [.num 2]⟩)])
    .fresh (Nat.le_refl _) (Nat.le_refl _) ?_ (Nat.le_refl _) (by omega) (Nat.le_refl _) (by simp) rfl, ?_⟩
  · exact .next (xs := [_, _]) (p := (2, ⟨2, 0, [⟨none, 0⟩, ⟨some 1, 1⟩], .run false true⟩))
      (.next (xs := [_]) (p := (1, ⟨1, 0, [⟨none, 0⟩, ⟨some 1, 1⟩], .run false true⟩))
        (.next (xs := []) .nil (.skip rfl (.item rfl))) (.item rfl)) (.item rfl)
  · exact ⟨_, .skip rfl (.skip rfl (.skip rfl (.skip rfl (.item rfl))))⟩

/-- In the same situation one sample earlier everything is fine (`C36_worker_pass_partial` applies). -/
example : ∃ (u : Nat × WAttr Nat), Inc (listD [7, 8, 9]) 0 2 3 u 2 := by
  refine ⟨_, .restored (c := 0) (c' := 2) (cfg := ⟨2, 2, fun _ => false⟩) (p := (3, ⟨3, 0, [⟨none, 0⟩, ⟨some 1, 1⟩], .run false true⟩))
    (xs := [(0, ⟨7, loaderKey 0 0 ++ [.num 0]⟩), (1, ⟨8, loaderKey 0 1 ++ [.num 1]⟩), (2, ⟨9, loaderKey 0 2 ++ [.num 2]⟩)])
    .fresh (Nat.le_refl _) (Nat.le_refl _) ?_ (Nat.le_refl _) (by omega) (by simp) (by simp) rfl⟩
  exact .next (xs := [_, _]) (p := (2, ⟨2, 0, [⟨none, 0⟩, ⟨some 1, 1⟩], .run false true⟩))
    (.next (xs := [_]) (p := (1, ⟨1, 0, [⟨none, 0⟩, ⟨some 1, 1⟩], .run false true⟩))
      (.next (xs := []) .nil (.skip rfl (.item rfl))) (.item rfl)) (.item rfl)

end Verif.Loader
