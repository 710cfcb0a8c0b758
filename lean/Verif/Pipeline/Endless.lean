import Verif.Wrap.SimpleProps
import Verif.Wrap.BatchProps
import Verif.Wrap.PackProps
import Verif.Wrap.ShuffleProps
import Verif.Wrap.LengthProps

/-! # Wrappers around endless datasets are endless -/

namespace Verif.Stream

variable {σ κ α β X KX C C' : Type}

/-- An action that keeps `J` and does not end the pass, unless the pass of the inner dataset ends. -/
def Act.NoEnd {ι : Type} (J : X → Prop) : Act ι α β X → Prop
  | .emit _ x => J x
  | .halt _ => False
  | .tau x => J x
  | .reset _ => False
  | .pull _ f _ => ∀ a, J (f a)
  | .raise => True

/-- While `J` holds the wrapper does not end its pass by itself. -/
theorem wrap_neverEnds {D : Dataset σ α κ} {W : Wrapper Unit α β X KX} (J : X → Prop) (hi : J W.init)
    (hres : ∀ x, J x → J (W.resume (W.save x))) (hact : ∀ x, J x → (W.act x).NoEnd J) (hN : D.NeverEnds) :
    (wrap D W).NeverEnds := by
  have key : ∀ {s x o}, WObs (Source.single D) W s x o → D.Paused false s → J x →
      (∀ q, o ≠ .fin q) ∧ o.All (fun p => D.Paused false p.1 ∧ J p.2) := by
    intro s x o h
    induction h with
    | emit h => intro hp hj; have := hact _ hj; rw [h] at this; exact ⟨(by intro _ h; cases h), hp, this⟩
    | halt h => intro hp hj; have := hact _ hj; rw [h] at this; exact this.elim
    | raise h => intro hp hj; exact ⟨(by intro _ h; cases h), trivial⟩
    | tau h _ ih => intro hp hj; have := hact _ hj; rw [h] at this; exact ih hp this
    | reset h _ ih => intro hp hj; have := hact _ hj; rw [h] at this; exact this.elim
    | pullItem h h2 _ ih =>
      intro hp hj
      have := hact _ hj
      rw [h] at this
      exact ih (.item hp h2) (this _)
    | pullFin h h2 _ ih => intro hp hj; exact absurd h2 (hN _ _ hp)
    | pullErr h h2 => intro hp hj; exact ⟨(by intro _ h; cases h), trivial⟩
  have hp : ∀ p, (wrap D W).Paused false p → D.Paused false p.1 ∧ J p.2 := by
    intro p h
    induction h with
    | init => exact ⟨.init, hi⟩
    | item _ h ih => exact (key (wrap_obs.1 h) ih.1 ih.2).2
    | fin _ h ih => exact (key (wrap_obs.1 h) ih.1 ih.2).2
    | resume _ ih => exact ⟨.resume ih.1, hres _ ih.2⟩
    | reset hr => cases hr
  intro s s' h1 h2
  obtain ⟨h3, h4⟩ := hp s h1
  exact (key (wrap_obs.1 h2) h3 h4).1 _ rfl

theorem loopW_neverEnds {D : Dataset σ α κ} {body : Nat → α → LoopRes β} {rs : List Key → Option β} {has : Bool}
    (hN : D.NeverEnds) : (wrap D (loopW body rs has)).NeverEnds := by
  refine wrap_neverEnds (fun x => x.ctl ≠ .done) (by simp [loopW]) (by simp [loopW]) ?_ hN
  rintro ⟨n, c⟩ h
  cases c with
  | loop => intro a; simp
  | got a =>
    simp only [loopW]
    cases body n a <;> simp [Act.NoEnd]
  | done => exact absurd rfl h

theorem map_neverEnds {D : Dataset σ (Smp C) κ} {f : MapFn C C'} {st : Bool} (hN : D.NeverEnds) : (mapD D f st).NeverEnds :=
  loopW_neverEnds hN

theorem log_neverEnds {D : Dataset σ (Smp C) κ} (hN : D.NeverEnds) : (logD D).NeverEnds := loopW_neverEnds hN

/-- Control points of the packing dataset before the end of the source. -/
def packOpen : PackCtl C' → Prop
  | .check _ => True
  | .fill _ => True
  | .ended => False
  | .final last => last = false
  | .sub last _ _ _ _ _ => last = false
  | .drain => False
  | .dead => True

theorem pack_neverEnds {D : Dataset σ (Smp C) κ} {size : Nat} {pre : PreFn C} {gen : Bool} {f : FinalFn C C'}
    (hN : D.NeverEnds) : (packD D size pre gen f).NeverEnds := by
  refine wrap_neverEnds (fun x => packOpen x.ctl) (by simp [packW, packOpen]) ?_ ?_ hN
  · intro x _
    simp only [packW]
    split <;> simp [packOpen]
  rintro ⟨rb, pb, lens, i, j, c⟩ h
  have hpp : ∀ (x : PackX C C') nx, packOpen nx → (prePack pre x nx).NoEnd (fun x => packOpen x.ctl) := by
    intro x nx hnx
    unfold prePack
    split
    · trivial
    · split
      · exact hnx
      · cases pre x.pidx x.rb <;> simp [Act.NoEnd, hnx]
  cases c with
  | check r =>
    simp only [packW, Act.NoEnd]
    split <;> simp [packOpen]
  | fill r =>
    simp only [packW]
    split
    · intro a; trivial
    · split
      · trivial
      · split
        · trivial
        · exact hpp _ _ trivial
  | ended => exact h.elim
  | final last =>
    obtain rfl : last = false := h
    cases lens with
    | nil => trivial
    | cons l ls => exact rfl
  | sub last idx k keys rest e =>
    obtain rfl : last = false := h
    cases rest with
    | nil =>
      simp only [packW]
      split
      · trivial
      · simp [Act.NoEnd, packOpen]
    | cons c cs => exact rfl
  | drain => exact h.elim
  | dead => trivial

/-- The log wrapper around a dataset that resumes except for the report of an end. -/
theorem log_resumesUpToEnd {D : Dataset σ (Smp C) κ} (h : D.ResumesUpToEnd) : (logD D).ResumesUpToEnd := by
  rintro ⟨s, x⟩ hp
  obtain ⟨h1, h2⟩ := loopW_paused (body := fun _ (a : Smp C) => LoopRes.out a) (rs := D.restoreSample) (has := D.hasSamples) hp
  obtain ⟨n, c⟩ := x
  simp only at h2
  subst h2
  rcases h s h1 with h3 | ⟨s', h3, h4⟩
  · exact .inl (wrap_equiv loopW_noReset h3 _)
  · refine .inr ⟨(s', ⟨n, .loop⟩), ?_, wrap_equiv loopW_noReset h4 _⟩
    exact wrap_obs.2 (.pullFin rfl h3 (.halt rfl))

end Verif.Stream
