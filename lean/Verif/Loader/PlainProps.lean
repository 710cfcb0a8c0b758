import Verif.Loader.PlainModel
import Verif.Wrap.SimpleProps
import Verif.Stream.Lockstep

/-! # C53: the loader without worker processes -/

namespace Verif.Loader

open Verif.Stream

variable {σ κ C : Type}

/-- A sample without what the loader has added to its restore key. -/
def stripLoader (a : Smp C) : Smp C := ⟨a.content, a.key.drop 3⟩

/-- In each pass the loader delivers the samples of the dataset, numbered consecutively (over all passes) in their restore keys. -/
theorem C53_pass (D : Dataset σ (Smp C) κ) (rank n : Nat) (xs : List (Smp C)) (s s' : σ) (hs : D.Pass s xs s') :
    (plainD D rank).Pass (s, ⟨n, .loop⟩)
      ((xs.zipIdx n).map fun q => ⟨q.1.content, .str "SimpleSavableDatasetWrapper" :: .num rank :: .num q.2 :: q.1.key⟩)
      (s', ⟨n + xs.length, .loop⟩) := by
  have h : loopSpec (fun n (a : Smp C) => LoopRes.out (a.addKey (plainKey rank n))) n xs =
      some ((xs.zipIdx n).map fun q => ⟨q.1.content, .str "SimpleSavableDatasetWrapper" :: .num rank :: .num q.2 :: q.1.key⟩) := by
    rw [loopSpec_isSome (by simp)]
    congr 1
    generalize xs.zipIdx n = l
    induction l with
    | nil => rfl
    | cons q l ih => rw [List.filterMap_cons, ih]; rfl
  have := loopW_pass (rs := plainRestore D) (has := D.hasSamples) h hs
  have key : ∀ (t u : σ × LoopX (Smp C)) (es : List (Ev (Smp C))),
      (wrap D (loopW (fun n (a : Smp C) => LoopRes.out (a.addKey (plainKey rank n))) (plainRestore D) D.hasSamples)).Run t es u →
      (plainD D rank).Run t es u := by
    intro t u es h
    induction h with
    | nil => exact .nil
    | item h _ ih => exact .item h ih
    | fin h _ ih => exact .fin h ih
  exact key _ _ _ this

private def plainW (D : Dataset σ (Smp C) κ) (rank : Nat) : Wrapper Unit (Smp C) (Smp C) (LoopX (Smp C)) Unit :=
  let W := loopW (fun n a => .out (a.addKey (plainKey rank n))) (plainRestore D) D.hasSamples
  { init := W.init, act := W.act, save := fun _ => (), resume := fun _ => ⟨0, .loop⟩,
    reset := fun x => ⟨x.idx, .loop⟩, restoreSample := W.restoreSample, hasSamples := W.hasSamples }

private theorem plain_inv (D : Dataset σ (Smp C) κ) (rank : Nat) (r : Bool) :
    WInv (Source.single D) (plainW D rank) (D.Paused r)
      (fun x => ∀ a, x.ctl = .got a → D.Yields r a) (fun x => x.ctl = .loop) := by
  have hinv := loopW_inv (D := D) (body := fun n (a : Smp C) => .out (a.addKey (plainKey rank n))) (rs := plainRestore D)
    (has := D.hasSamples) r
  exact { resume_to := hinv.resume_to, emit := hinv.emit, halt := hinv.halt, tau := hinv.tau
          reset := hinv.reset, resetP := hinv.resetP, pullItem := hinv.pullItem, pullFin := hinv.pullFin }

private theorem plain_paused {D : Dataset σ (Smp C) κ} {rank : Nat} {r : Bool} {p : σ × LoopX (Smp C)}
    (h : (plainD D rank).Paused r p) : D.Paused r p.1 ∧ p.2.ctl = .loop :=
  wrap_paused (W := plainW D rank) (plain_inv D rank r) rfl (fun _ _ => rfl) (fun _ _ _ => rfl) h

/-- Saving and restoring is exact up to the running number that the loader adds to the restore keys. -/
theorem C53_resumes_partial (D : Dataset σ (Smp C) κ) (rank : Nat) (r : Bool) (hD : D.ResumesExactly r) :
    ((plainD D rank).mapOut stripLoader).ResumesExactly r := by
  intro p hp
  rw [paused_mapOut] at hp
  obtain ⟨h1, h2⟩ := plain_paused hp
  obtain ⟨s, ⟨n, c⟩⟩ := p
  simp only at h2
  subst h2
  have e0 : (plainD D rank).mapOut stripLoader = wrap D ((plainW D rank).mapOut stripLoader) := wrap_mapOut
  rw [e0]
  have hnr : ((plainW D rank).mapOut stripLoader).NoReset := by
    intro x x' h
    simp only [Wrapper.mapOut] at h
    cases ha : (plainW D rank).act x <;> rw [ha] at h <;> cases h
    exact loopW_noReset (body := fun n (a : Smp C) => .out (a.addKey (plainKey rank n))) (rs := plainRestore D)
      (has := D.hasSamples) _ _ ha
  refine Dataset.Equiv.trans ?_ (wrap_equiv hnr (hD s h1) _)
  refine wrap_equiv_lockstep (R := fun x y => x.ctl = y.ctl) ?_ s rfl
  rintro ⟨m, c⟩ ⟨m', c'⟩ h
  simp only at h
  subst h
  cases c with
  | loop => exact .pull (fun _ => rfl) rfl
  | got a =>
    simp only [Wrapper.mapOut, plainW, loopW, Act.mapB]
    exact .emit rfl
  | done => exact .halt rfl

/-- Every sample can be restored from its restore key. -/
theorem C34_plain (D : Dataset σ (Smp C) κ) (rank : Nat) (r : Bool) (h : D.RestoresSamples r) :
    (plainD D rank).RestoresSamples r := by
  intro p b q hp ho
  obtain ⟨h1, h2⟩ := plain_paused hp
  have := WObs.emits (plain_inv D rank r) (Z := fun b => (plainD D rank).restoreSample b.key = some b) ?_ (wrap_obs.1 ho) h1
    ((plain_inv D rank r).resume_to _ h2)
  · exact this
  · rintro ⟨m, c⟩ b x' hx hact
    simp only [plainW, loopW] at hact
    cases c with
    | loop => cases hact
    | done => cases hact
    | got a =>
      cases hact
      obtain ⟨s, s', hs, ho⟩ := hx a rfl
      simp [plainD, wrap, loopW, plainRestore, Smp.addKey, plainKey, h s a s' hs ho]

/-- The running number is lost when the loader is saved and restored: after three samples the next one has number 3 in the uninterrupted
run, and number 0 after resuming. -/
theorem C53_violated : (streamD id).ResumesExactly ∧ ¬ (plainD (streamD id) 0).ResumesExactly := by
  refine ⟨streamD_resumes _ _, fun h => ?_⟩
  have hp : (plainD (streamD id) 0).Paused false (3, ⟨3, .loop⟩) :=
    Dataset.after_paused (n := 20) (k := 3) (s := (0, ⟨0, .loop⟩)) rfl .init
  exact Dataset.not_equiv 5 1 (by decide +kernel) (by decide +kernel) (h _ hp)

example : (plainD (listD [1, 2]) 5).eval 20 (0, ⟨0, .loop⟩) =
    [.item ⟨1, [.str "SimpleSavableDatasetWrapper", .num 5, .num 0, .num 0]⟩,
     .item ⟨2, [.str "SimpleSavableDatasetWrapper", .num 5, .num 1, .num 1]⟩, .fin,
     .item ⟨1, [.str "SimpleSavableDatasetWrapper", .num 5, .num 2, .num 0]⟩,
     .item ⟨2, [.str "SimpleSavableDatasetWrapper", .num 5, .num 3, .num 1]⟩, .fin,
     .item ⟨1, [.str "SimpleSavableDatasetWrapper", .num 5, .num 4, .num 0]⟩,
     .item ⟨2, [.str "SimpleSavableDatasetWrapper", .num 5, .num 5, .num 1]⟩, .fin,
     .item ⟨1, [.str "SimpleSavableDatasetWrapper", .num 5, .num 6, .num 0]⟩] := by decide +kernel

example : ((plainD (listD [1, 2]) 0).mapOut stripLoader).ResumesExactly := C53_resumes_partial _ _ _ (listD_resumes _ _)
example : (plainD (listD [1, 2]) 0).RestoresSamples := C34_plain _ _ _ (listD_restores _ _)

end Verif.Loader
