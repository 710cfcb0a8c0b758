import Verif.Wrap.BatchProps

/-! # C51 for batching with `drop_last`

Source: /repo src/megatron/energon/wrappers/batch_dataset.py (model in `Verif.Wrap.BatchModel`): without an incomplete last batch the generator is never suspended behind the end of the source. -/

namespace Verif.Stream

variable {σ κ C C' : Type} {D : Dataset σ (Smp C) κ} {bs : Nat} {f : BatchFn C C'}

theorem batch_inv_drop (r : Bool) :
    WInv (Source.single D) (batchW D bs true f) (D.Paused r)
      (fun x => x.ctl ≠ .emitted true ∧ x.ctl ≠ .flush true)
      (fun x => (x.ctl = .loop ∧ x.batch = [] ∧ x.keys = []) ∨ x.ctl = .emitted false) := by
  refine WInv.mk' batch_noReset ?_ ?_ ?_ ?_ ?_ ?_
  · rintro ⟨i, b, ks, c⟩ (⟨h1, h2, h3⟩ | h1) <;> simp only at * <;> subst h1 <;> simp
  · rintro ⟨i, b, ks, c⟩ a x' hx h
    cases c with
    | flush last =>
      simp only [batchW] at h
      cases last with
      | false => cases hfb : f i b <;> rw [hfb] at h <;> cases h; exact .inr rfl
      | true => exact absurd rfl hx.2
    | _ => cases h
  · rintro ⟨i, b, ks, c⟩ x' hx h
    cases c <;> simp only [batchW] at h <;> try (first | cases h | (split at h <;> cases h))
    exact .inl ⟨rfl, rfl, rfl⟩
  · rintro ⟨i, b, ks, c⟩ x' hx h
    cases c with
    | loop => simp only [batchW] at h; cases h
    | flush last =>
      simp only [batchW] at h
      cases hfb : f i b <;> rw [hfb] at h <;> cases h
      cases last <;> simp
    | emitted last =>
      simp only [batchW] at h
      cases h
      cases last <;> simp
    | done => simp only [batchW] at h; cases h
  · rintro ⟨i, b, ks, c⟩ j e g hx h a ha
    cases c <;> simp only [batchW] at h <;> try (first | cases h | (split at h <;> cases h))
    by_cases hfull : b.length + 1 = bs
    · simp [hfull]
    · simp [hfull]
  · rintro ⟨i, b, ks, c⟩ j e g hx h hne
    cases c <;> simp only [batchW] at h <;> try (first | cases h | (split at h <;> cases h))
    simp

/-- With `drop_last` a batched dataset (any batcher, failing or not) resumes exactly if its source does. -/
theorem C51_batch_resumes_drop_last (D : Dataset σ (Smp C) κ) (bs : Nat) (f : BatchFn C C') (r : Bool) (hD : D.ResumesExactly r) : (batchD D bs true f).ResumesExactly r := by
  rintro ⟨s, ⟨i, b, ks, c⟩⟩ h
  obtain ⟨h1, h2⟩ : D.Paused r s ∧ _ := wrap_paused (batch_inv_drop r) (.inl ⟨rfl, rfl, rfl⟩) (fun _ _ => .inl ⟨rfl, rfl, rfl⟩) (fun _ _ _ => .inl ⟨rfl, rfl, rfl⟩) h
  have e2 : (wrap D (batchW D bs true f)).Equiv (s, ⟨i, [], [], .loop⟩) (D.resume (D.save s), ⟨i, [], [], .loop⟩) := wrap_equiv batch_noReset (hD s h1) _
  rcases h2 with ⟨hc, hb, hk⟩ | hc <;> simp only at hc
  · simp only at hb hk; subst hc hb hk; exact e2
  · subst hc
    exact (wrap_equiv_tau (by rfl)).trans e2

example : (batchD (listD [1, 2, 3]) 2 true sumBatch).ResumesExactly true := C51_batch_resumes_drop_last _ _ _ _ (listD_resumes _ _)

end Verif.Stream
