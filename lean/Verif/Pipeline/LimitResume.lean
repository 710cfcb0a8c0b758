import Verif.Pipeline.EpochTraining
import Verif.Pipeline.ValContents
import Verif.Pipeline.Reset
import Verif.Pipeline.Example
import Verif.Wrap.BatchDrop

/-!
# C123: the datasets of a validation, saved and resumed

Source: /repo src/megatron/energon/task_encoder/base.py:557-601 (model in `Verif.Pipeline.Model`): one dataset, no packing; without limit, or with a limit and `drop_last`.
-/

namespace Verif.Pipeline

open Verif.Stream Verif.Wds Verif.Loader

variable {σ κ B C K ρ : Type}

/-! ### Proofs: `next` never fails -/

/-- Of two runs from one state the shorter one can be continued. -/
theorem run_goes_on {D : Dataset σ (Smp C) κ} {a s t : σ} {es fs : List (Ev (Smp C))} (h : D.Run a es s) (h' : D.Run a fs t) (hl : es.length < fs.length) :
    ∃ o, Obs D.step s o ∧ o ≠ .err := by
  induction h generalizing fs t with
  | nil =>
    cases h' with
    | nil => simp at hl
    | item h1 _ => exact ⟨_, h1, by simp⟩
    | fin h1 _ => exact ⟨_, h1, by simp⟩
  | item h1 _ ih =>
    cases h' with
    | nil => simp at hl
    | item h2 h3 =>
      cases Obs.det h1 h2
      exact ih h3 (by simpa using hl)
    | fin h2 h3 => cases Obs.det h1 h2
  | fin h1 _ ih =>
    cases h' with
    | nil => simp at hl
    | item h2 h3 => cases Obs.det h1 h2
    | fin h2 h3 =>
      cases Obs.det h1 h2
      exact ih h3 (by simpa using hl)

theorem passes_long {D : Dataset σ (Smp C) κ} {out : Nat → List (Smp C)} (h : Passes D out) (n : Nat) : ∃ es t, D.Run D.init es t ∧ n ≤ es.length := by
  obtain ⟨S, h0, hp⟩ := h
  have : ∃ es, D.Run D.init es (S n) ∧ n ≤ es.length := by
    induction n with
    | zero => exact ⟨[], by rw [h0]; exact .nil, Nat.le_refl _⟩
    | succ n ih =>
      obtain ⟨es, h1, h2⟩ := ih
      refine ⟨es ++ passEvs (out n), h1.append (hp n), ?_⟩
      rw [List.length_append]
      have : 0 < (passEvs (out n)).length := by unfold passEvs; simp
      omega
  obtain ⟨es, h1⟩ := this
  exact ⟨es, _, h1⟩

theorem paused_more {σ κ α : Type} {D : Dataset σ α κ} {s : σ} (h : D.Paused false s) : D.Paused true s := by
  induction h with
  | init => exact .init
  | item _ ho ih => exact .item ih ho
  | fin _ ho ih => exact .fin ih ho
  | resume _ ih => exact .resume ih
  | reset hr _ _ => cases hr

/-- After any history the dataset behaves as in some uninterrupted run. -/
theorem paused_equiv_run {D : Dataset σ (Smp C) κ} (hD : D.ResumesExactly true) (hR : D.ResetsToInit) {s : σ} (h : D.Paused true s) : ∃ es t, D.Run D.init es t ∧ D.Equiv s t := by
  induction h with
  | init => exact ⟨[], _, .nil, .refl _⟩
  | item _ ho ih =>
    obtain ⟨es, t, h1, h2⟩ := ih
    obtain ⟨t', h3, h4⟩ := item_of_equiv h2.symm ho
    exact ⟨_, t', h1.append (.item h3 .nil), h4.symm⟩
  | fin _ ho ih =>
    obtain ⟨es, t, h1, h2⟩ := ih
    obtain ⟨t', h3, h4⟩ := fin_of_equiv h2.symm ho
    exact ⟨_, t', h1.append (.fin h3 .nil), h4.symm⟩
  | resume hp ih =>
    obtain ⟨es, t, h1, h2⟩ := ih
    exact ⟨es, t, h1, (hD _ hp).symm.trans h2⟩
  | reset _ hp _ => exact ⟨[], _, .nil, hR _ hp⟩

/-- A dataset that delivers passes and can be saved and reset never fails. -/
theorem live_of_passes {D : Dataset σ (Smp C) κ} {out : Nat → List (Smp C)} (h : Passes D out) (hD : D.ResumesExactly true) (hR : D.ResetsToInit) : D.Live true := by
  intro s hs
  obtain ⟨es, t, h1, h2⟩ := paused_equiv_run hD hR hs
  obtain ⟨fs, t', h3, h4⟩ := passes_long h (es.length + 1)
  obtain ⟨o, h5, h6⟩ := run_goes_on h1 h3 (by omega)
  cases o with
  | item a u =>
    obtain ⟨s', h7, _⟩ := item_of_equiv h2 h5
    exact ⟨_, h7, by simp⟩
  | fin u =>
    obtain ⟨s', h7, _⟩ := fin_of_equiv h2 h5
    exact ⟨_, h7, by simp⟩
  | err => exact absurd rfl h6

/-! ### Proofs: the stages -/

theorem mapStage_resumes_reset {u : Option (UserMap C)} (hu : ∀ f, u = some f → f.Plain) {r : Bool} {A : AnyDs C} (h : A.D.ResumesExactly r) : (mapStage u A).D.ResumesExactly r := by
  unfold mapStage
  split
  · exact h
  · exact C13_map_resumes _ _ _ _ h
  · exact (hu _ rfl).elim

/-- The dataset built for a part of the validation data resumes exactly, also after `restore_state(None)`. -/
theorem buildPart_val_resumes {R : WRng ρ} {d : Disk B C} (hd : d.Ok) {w : Sharder.WorkerConfig} (hr : w.rank < w.worldSize) {i : Nat} (hi : i < w.workers)
    {D : Dataset (PartS B ρ) (Smp C) (PartK ρ)} (h : buildPart R d false w 0 i = .ok D) (r : Bool) : D.ResumesExactly r := by
  obtain ⟨p, h1, h2, h3, h4, h5, _⟩ := slicesFor_ok hd hr 0 hi
  unfold buildPart at h
  rw [h1] at h
  cases h
  exact C13_map_resumes _ _ _ _ (C33_resumes (ids_nodup d false h3) r)

/-- The limited dataset of a validation with `drop_last` resumes exactly. -/
theorem val_limit_resumes [DecidableEq K] {R : Rngs ρ} {E : Encoder C K} {d : Disk B C} {o : ValOpts} {w : Sharder.WorkerConfig} {i : Nat} (hd : d.Ok) (hr : w.rank < w.worldSize) (hi : i < w.workers)
    (hE : E.Simple none) (hp : o.packing = none) (hdl : o.dropLast = true) {n : Nat} (hn : 0 < n) (hlim : o.limit = some n)
    {A0 : AnyDs C} {out : Nat → List (Smp C)} (h0 : valDs R E [d] { o with limit := none, logging := false } w i = .ok A0) (hout : Passes A0.D out)
    {A : AnyDs C} (h : valDs R E [d] o w i = .ok A) : A.D.ResumesExactly := by
  unfold valDs at h h0
  cases hs : valSource R [d] w i with
  | error e => rw [hs] at h; cases h
  | ok S =>
    rw [hs] at h h0
    simp only at h h0
    have hres := valSource_resets hs
    have hS : S.D.ResumesExactly true := by
      unfold valSource at hs
      simp only at hs
      cases hb : buildPart (R.reader 0) d false w 0 i with
      | error e => rw [hb] at hs; simp at hs
      | ok D =>
        rw [hb] at hs
        cases hs
        exact buildPart_val_resumes hd hr hi hb true
    simp only [buildBatch, packStage, hp, batchStage, hE.group, limitStage] at h h0
    cases h0
    have h1 := mapStage_resumes_reset (r := true) hE.encode (mapStage_resumes_reset hE.cook hS)
    have h2 := mapStage_resets (u := E.encode) (mapStage_resets (u := E.cook) hres)
    have h3 := mapStage_resumes_reset (r := true) (A := onlyIf E.batchStateless ⟨_, _, batchD (mapStage E.encode (mapStage E.cook S)).D o.batchSize o.dropLast E.batch⟩) hE.encodeBatch
      (onlyIf_resumes (by dsimp only; rw [hdl]; exact C51_batch_resumes_drop_last _ _ _ _ h1))
    have h4 := mapStage_resets (u := E.encodeBatch) (A := onlyIf E.batchStateless ⟨_, _, batchD (mapStage E.encode (mapStage E.cook S)).D o.batchSize o.dropLast E.batch⟩)
      (onlyIf_resets (C89_batch _ _ _ h2))
    have h5 := C19_limit_resumes_partial _ n w.numWorkers i true h3 h4 (live_of_passes hout h3 h4)
    rw [hlim] at h
    simp only [hn, if_true] at h
    cases h
    exact logStage_resumes (A := ⟨_, _, limitD _ n w.numWorkers i true⟩) fun s hs => h5 s (paused_more hs)

end Verif.Pipeline
