import Verif.Ranks.Props
import Verif.Pipeline.Loader
import Verif.Pipeline.Example
import Verif.Loader.PlainProps

/-! # C81 for whole training datasets, on ranks without worker processes -/

namespace Verif.Ranks

open Verif.Stream Verif.Pipeline Verif.Loader

variable {B C K ρ : Type}

/-- savable_loader.py:712-730: the loader of a rank without worker processes (whose global worker id is 0), except for the running number it adds to the restore keys
(which is not saved, C53_violated) -/
def trainRank (A : AnyDs C) : AnyDs C := ⟨_, _, (plainD (gcD A.D) 0).mapOut stripLoader⟩

/-- **C81** A distributed training job with `n` ranks without worker processes, interrupted any number of times, delivers on every rank what the uninterrupted job delivers there. (Partial: no
virtual epochs, and the encoders of `C65_train_resumes_partial`.) -/
theorem C81_training_partial [DecidableEq K] (R : Nat → Rngs ρ) (E : Encoder C K) (ds : List (Disk B C)) (o : TrainOpts) (n : Nat)
    (hne : ds ≠ []) (hds : ∀ r < n, ∀ d ∈ ds, d.Ok ∧ d.Enough ⟨r, n, 0⟩) (ho : o.epochLength = 0)
    (hE : E.Simple o.packing) (hF : E.Fits o.batchSize o.packing) :
    ∃ A : Nat → AnyDs C, (∀ r < n, trainDs (R r) E ds o ⟨r, n, 0⟩ 0 = .ok (A r)) ∧
      ∀ (members : List Nat) evs rs, members.length = n → Job members false (bundle fun r => trainRank (A r)) evs rs → ∀ r < n,
        ∃ t, (trainRank (A r)).D.Run (trainRank (A r)).D.init (evs r) t ∧ ∃ s, rs r = ⟨⟨r, s⟩, (rs r).started⟩ ∧ (trainRank (A r)).D.Equiv t s := by
  have h : ∀ r, ∃ A : AnyDs C, r < n → trainDs (R r) E ds o ⟨r, n, 0⟩ 0 = .ok A ∧ A.D.ResumesExactly := by
    intro r
    by_cases hr : r < n
    · obtain ⟨A, h1, _, h2⟩ := C65_train_resumes_partial (R r) E ds o ⟨r, n, 0⟩ 0 hne (hds r hr) hr (Nat.lt_of_lt_of_le Nat.one_pos (Nat.le_max_left _ _)) hE hF
      exact ⟨A, fun _ => ⟨h1, h2 ho⟩⟩
    · exact ⟨⟨Unit, Unit, ⟨(), fun _ => .raise, id, id, id, fun _ => none, false⟩⟩, fun h => absurd h hr⟩
  choose A hA using h
  refine ⟨A, fun r hr => (hA r hr).1, ?_⟩
  intro members evs rs hm hj r hr
  have hex : (trainRank (A r)).D.ResumesExactly := C53_resumes_partial _ 0 _ (C12_gc_resumes _ _ (hA r hr).2)
  have hh := hj.history (hm ▸ hr)
  generalize rs r = x at hh
  obtain ⟨p, st⟩ := x
  simp only at hh
  suffices ∀ evs p, (bundle (fun r => trainRank (A r)) r).History evs p → ∃ s, p = ⟨r, s⟩ ∧ (trainRank (A r)).D.History evs s by
    obtain ⟨s, rfl, h1⟩ := this _ _ hh
    obtain ⟨t, h2, h3⟩ := h1.run hex
    exact ⟨t, h2, s, rfl, h3⟩
  intro evs p h
  induction h with
  | init => exact ⟨_, rfl, .init⟩
  | item _ ho ih =>
    obtain ⟨s, rfl, hs⟩ := ih
    obtain ⟨o, h1, h2⟩ := bundle_obs_inv ho
    cases o <;> cases h2
    exact ⟨_, rfl, .item hs h1⟩
  | fin _ ho ih =>
    obtain ⟨s, rfl, hs⟩ := ih
    obtain ⟨o, h1, h2⟩ := bundle_obs_inv ho
    cases o <;> cases h2
    exact ⟨_, rfl, .fin hs h1⟩
  | resume _ ih =>
    obtain ⟨s, rfl, hs⟩ := ih
    exact ⟨_, rfl, .resume hs⟩

/-- Three ranks, two datasets -/
example : ∃ A : Nat → AnyDs Nat, ∀ r < 3, trainDs exR exE [exDisk "a" 10 4, exDisk "b" 100 6] exO ⟨r, 3, 0⟩ 0 = .ok (A r) := by
  have hds : ∀ r < 3, ∀ d ∈ [exDisk "a" 10 4, exDisk "b" 100 6], d.Ok ∧ d.Enough ⟨r, 3, 0⟩ := by
    intro r hr d hd
    simp only [List.mem_cons, List.not_mem_nil, or_false] at hd
    rcases hd with rfl | rfl
    · exact ⟨exDisk_ok _ _ _ (by decide), by unfold Disk.Enough; match r, hr with | 0, _ => decide | 1, _ => decide | 2, _ => decide⟩
    · exact ⟨exDisk_ok _ _ _ (by decide), by unfold Disk.Enough; match r, hr with | 0, _ => decide | 1, _ => decide | 2, _ => decide⟩
  obtain ⟨A, h, _⟩ := C81_training_partial (fun _ => exR) exE [exDisk "a" 10 4, exDisk "b" 100 6] exO 3 (by simp) hds rfl
    ⟨by simp [exE], by simp [exE, UserMap.Plain], by simp [exE], rfl, by simp [exO]⟩ ⟨by simp [exO], by simp [exO]⟩
  exact ⟨A, h⟩

end Verif.Ranks
