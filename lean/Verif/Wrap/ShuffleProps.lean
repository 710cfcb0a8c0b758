import Verif.Wrap.ShuffleLemmas
import Verif.Stream.Example

/-! # C10, C11: the shuffle buffer -/

namespace Verif.Stream

variable {σ κ C ρ : Type}

/-! ## C10 -/

/-- For every finite pass `xs` of the source the shuffled dataset's pass is a rearrangement of `xs` (whatever
random numbers come), and afterwards the buffer is empty, ready for the next pass. -/
theorem C10_shuffle_pass (D : Dataset σ (Smp C) κ) (R : Rng ρ) (size : Nat) (hsize : 0 < size) (g : ρ)
    (xs : List (Smp C)) (s s' : σ) (hs : D.Pass s xs s') :
    ∃ ys g', (shuffleD D R size).Pass (s, ⟨[], g, .fill⟩) ys (s', ⟨[], g', .fill⟩) ∧ ys.Perm xs := by
  obtain ⟨ys, buf, g1, h1, h2⟩ := shuffle_fill_trans (D := D) (R := R) xs [] g (by simpa using hsize)
  obtain ⟨zs, g2, h3⟩ := shuffle_drain_trans (D := D) (R := R) (size := size) buf g1
  have hact : (shuffleW D R size).act ⟨buf, g1, .fill⟩ = .pull () (fun a => ⟨buf ++ [a], g1, .fill⟩)
      ⟨buf, g1, .drain⟩ := by
    simp only [shuffleW, Nat.not_le.2 h2, if_false]
  have h4 := h1.append (.pullFin hact h3)
  have h5 : (shuffleW D R size).Trans ⟨[], g, .fill⟩ (passEvs xs) ((ys ++ zs).map .item) ⟨[], g2, .drain⟩ := by
    rw [List.map_append]; exact h4
  refine ⟨ys ++ zs, g2, h5.run_halt (by simp [shuffleW]) hs, ?_⟩
  obtain ⟨xs', h6, h7⟩ := shuffle_trans_inv h5 (ys ++ zs) rfl
  have hx : xs' = xs := by
    rcases h6 with ⟨h6, h8⟩ | ⟨h6, _⟩
    · cases h8
    · exact Dataset.passEvs_prefix (by rw [h6]; exact List.prefix_rfl)
  subst hx
  simpa using h7

/-- During a pass (also of a source that never ends): what was delivered, together with fewer than `size`
further samples that are held back, is a rearrangement of what was taken from the source. So nothing is lost or
duplicated and a sample comes out at most `size - 1` positions early. -/
theorem C10_shuffle_items (D : Dataset σ (Smp C) κ) (R : Rng ρ) (size : Nat) (hsize : 0 < size) (g : ρ)
    (hD : D.RestoresSamples) (s : σ) (u : σ × ShufX ρ C) (ys : List (Smp C))
    (hp : (shuffleD D R size).Paused false (s, ⟨[], g, .fill⟩))
    (h : (shuffleD D R size).Items (s, ⟨[], g, .fill⟩) ys u) :
    ∃ xs held, (D.Items s xs u.1 ∨ D.Pass s xs u.1) ∧ (ys ++ held).Perm xs ∧ held.length < size ∧
      xs.length < ys.length + size := by
  obtain ⟨es, h1, h2⟩ := run_inv shuffle_noReset h
  obtain ⟨xs, h3, h4⟩ := shuffle_trans_inv h2 ys rfl
  have h5 := (shuffle_paused hD hsize (h.paused hp)).2.2.1
  refine ⟨xs, u.2.buf, ?_, by simpa using h4, h5, ?_⟩
  · rcases h3 with ⟨rfl, _⟩ | ⟨rfl, _⟩
    · exact .inl h1
    · exact .inr h1
  · have := h4.length_eq
    simp only [List.length_append, List.length_nil] at this
    omega

/-- A generator for examples: takes the last element, state = number of draws. -/
def lastRng : Rng Nat :=
  { seed := 0
    below := fun g n => (n - 1, g + 1), below_lt := by intro g n h; simp only; omega
    choice := fun g n => (g % n, g + 1), choice_lt := by intro g n h; exact Nat.mod_lt _ h }

example : ((shuffleD (listD [1, 2, 3, 4]) lastRng 3).eval 30 (shuffleD (listD [1, 2, 3, 4]) lastRng 3).init).take 5
    = [.item ⟨3, [.num 2]⟩, .item ⟨4, [.num 3]⟩, .item ⟨2, [.num 1]⟩, .item ⟨1, [.num 0]⟩, .fin] := by decide

/-! ## C11

The full property "resumes exactly" is false if the source's pass can end: after the end of the source the saved
state does not say that the buffer is being drained, so the resumed run takes new samples from the source.
-/

/-- C11 is violated for a finite source: 4 samples, buffer size 3, saved after the third sample. -/
theorem C11_violated : ∃ (D : Dataset Nat (Smp Nat) Nat) (R : Rng Nat), D.ResumesExactly ∧ D.RestoresSamples ∧
    ¬ (shuffleD D R 3).ResumesExactly := by
  refine ⟨listD [1, 2, 3, 4], lastRng, listD_resumes _ _, listD_restores _ _, fun h => ?_⟩
  have hp : (shuffleD (listD [1, 2, 3, 4]) lastRng 3).Paused false
      (0, ⟨[⟨1, [.num 0]⟩], 3, .drain⟩) :=
    Dataset.after_paused (n := 30) (k := 3) rfl .init
  exact Dataset.not_equiv 30 3 (by decide) (by decide) (h _ hp)

/-- For every source that restores its samples by key: in every state in which user code has control and the
current pass of the source has not ended (no drain), the resumed dataset continues exactly. -/
theorem C11_shuffle_before_drain_partial (D : Dataset σ (Smp C) κ) (R : Rng ρ) (size : Nat) (hsize : 0 < size)
    (hD : D.ResumesExactly) (hR : D.RestoresSamples) (t : σ × ShufX ρ C)
    (ht : (shuffleD D R size).Paused false t) (hc : t.2.ctl ≠ .drain) :
    (shuffleD D R size).Equiv t ((shuffleD D R size).resume ((shuffleD D R size).save t)) := by
  obtain ⟨h1, h2, h3, h4, h5⟩ := shuffle_paused hR hsize ht
  obtain ⟨s, ⟨buf, g, c⟩⟩ := t
  have hcc : c = .fill := by cases c <;> simp_all
  subst hcc
  have : (shuffleW D R size).resume ((shuffleW D R size).save ⟨buf, g, .fill⟩) = ⟨buf, g, .fill⟩ := by
    simp only [shuffleW, mapM_restore h2]
  show (wrap D (shuffleW D R size)).Equiv (s, ⟨buf, g, .fill⟩)
    (D.resume (D.save s), (shuffleW D R size).resume ((shuffleW D R size).save ⟨buf, g, .fill⟩))
  rw [this]
  exact wrap_equiv shuffle_noReset (hD s h1) _

/-- For sources that never end (as in training, where the reader loops) the shuffled dataset resumes exactly at
every save point, after any number of saves and restores. Missing: sources whose pass ends (false, see
`C11_violated`). -/
theorem C11_shuffle_resumes_partial (D : Dataset σ (Smp C) κ) (R : Rng ρ) (size : Nat) (hsize : 0 < size)
    (hD : D.ResumesExactly) (hR : D.RestoresSamples) (hN : D.NeverEnds) :
    (shuffleD D R size).ResumesExactly := by
  intro t ht
  refine C11_shuffle_before_drain_partial D R size hsize hD hR t ht fun hc => ?_
  exact (shuffle_paused hR hsize ht).2.2.2.1 hc hN

/-- A shuffled dataset over a never ending source never ends. -/
theorem shuffle_neverEnds (D : Dataset σ (Smp C) κ) (R : Rng ρ) (size : Nat) (hsize : 0 < size)
    (hR : D.RestoresSamples) (hN : D.NeverEnds) : (shuffleD D R size).NeverEnds := by
  intro t u ht ho
  obtain ⟨h1, h2⟩ := shuffle_paused hR hsize ht
  have hinv := shuffle_inv (R := R) hR hsize
  have key : ∀ {s : σ} {x : ShufX ρ C} {o}, WObs (Source.single D) (shuffleW D R size) s x o →
      D.Paused false s → x.ctl = .fill → (∀ q, o ≠ .fin q) := by
    intro s x o h
    induction h with
    | emit h => intro _ _ q hq; cases hq
    | raise h => intro _ _ q hq; cases hq
    | pullErr h => intro _ _ q hq; cases hq
    | reset h => exact absurd h (shuffle_noReset _ _)
    | @halt s x x' h =>
      intro _ hc
      rcases shuffle_act_cases (D := D) (R := R) (size := size) x with ⟨i, g, hi, _, _, he⟩ | ⟨hc2, _, he⟩ | ⟨hc2, _, he⟩ | ⟨_, he⟩ <;>
        rw [h] at he <;> cases he
      rw [hc] at hc2; cases hc2
    | @tau s x x' o h =>
      rcases shuffle_act_cases (D := D) (R := R) (size := size) x with ⟨i, g, hi, _, _, he⟩ | ⟨hc2, _, he⟩ | ⟨hc2, _, he⟩ | ⟨_, he⟩ <;>
        rw [h] at he <;> cases he
    | @pullItem s x i f g a s' o h hs _ ih =>
      intro hp hc
      rcases shuffle_act_cases (D := D) (R := R) (size := size) x with ⟨i, g, hi, _, _, he⟩ | ⟨hc2, _, he⟩ | ⟨hc2, _, he⟩ | ⟨_, he⟩ <;>
        rw [h] at he <;> cases he
      exact ih (.item hp hs) hc
    | @pullFin s x i f g s' o h hs _ ih => intro hp; exact absurd hs (hN _ _ hp)
  have hc : t.2.ctl = .fill := by
    obtain ⟨_, _, h3, h4⟩ := h2
    cases hcc : t.2.ctl with
    | fill => rfl
    | drain => exact absurd hN (h3 hcc)
    | dead => exact absurd hcc h4
  exact key (wrap_obs.1 ho) h1 hc u rfl

-- the hypotheses are met by a never ending source
example : (shuffleD (streamD fun n => 7 * n) lastRng 5).ResumesExactly :=
  C11_shuffle_resumes_partial _ _ _ (by decide) (streamD_resumes _ _) (streamD_restores _ _) (streamD_never _ _)

/-! ## C34 for the shuffle buffer -/

/-- Samples of a shuffled dataset can be restored from their keys. -/
theorem C34_shuffle (D : Dataset σ (Smp C) κ) (R : Rng ρ) (size : Nat) (hsize : 0 < size)
    (hR : D.RestoresSamples) : (shuffleD D R size).RestoresSamples := by
  intro t a u ht ho
  obtain ⟨h1, h2, h3, h4, h5⟩ := shuffle_paused hR hsize ht
  refine WObs.emits (shuffle_inv (R := R) hR hsize) (Z := fun a => D.restoreSample a.key = some a) ?_
    (wrap_obs.1 ho) h1 ⟨h2, by omega, fun h => ⟨h3, h4 h⟩, h5⟩
  rintro x b x' ⟨h1, h2, h3, h4⟩ h
  rcases shuffle_act_cases (D := D) (R := R) (size := size) x with ⟨i, g, hi, hc, _, he⟩ | ⟨hc, _, he⟩ | ⟨_, _, he⟩ | ⟨_, he⟩ <;>
    rw [h] at he <;> cases he
  exact h1 _ (List.getElem_mem hi)

end Verif.Stream
