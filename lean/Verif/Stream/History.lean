import Verif.Stream.Lemmas

/-! # Histories with interruptions -/

namespace Verif.Stream

variable {σ α κ : Type}

/-- `D.History evs s`: in a sequence of processes, each (but the first) resumed from a state that the one before saved, the events `evs` were observed in all, and then the
state is `s`. Only what was observed before saving counts: after saving, a process stops. -/
inductive Dataset.History (D : Dataset σ α κ) : List (Ev α) → σ → Prop where
  | init : D.History [] D.init
  | item {evs s a s'} : D.History evs s → Obs D.step s (.item a s') → D.History (evs ++ [.item a]) s'
  | fin {evs s s'} : D.History evs s → Obs D.step s (.fin s') → D.History (evs ++ [.fin]) s'
  | resume {evs s} : D.History evs s → D.History evs (D.resume (D.save s))

namespace Dataset

variable {D : Dataset σ α κ}

theorem History.paused {evs : List (Ev α)} {s : σ} (h : D.History evs s) : D.Paused false s := by
  induction h with
  | init => exact .init
  | item _ ho ih => exact .item ih ho
  | fin _ ho ih => exact .fin ih ho
  | resume _ ih => exact .resume ih

/-- Interruptions do not matter for a dataset that resumes exactly: in all the processes together, the same is observed as in one. -/
theorem History.run (hD : D.ResumesExactly) {evs : List (Ev α)} {s : σ} (h : D.History evs s) : ∃ t, D.Run D.init evs t ∧ D.Equiv t s := by
  induction h with
  | init => exact ⟨_, .nil, .refl _⟩
  | item h ho ih =>
    obtain ⟨t, h1, h2⟩ := ih
    obtain ⟨o, h3, h4⟩ := Equiv.sim _ _ h2.symm _ ho
    cases h4 with
    | item h4 => exact ⟨_, h1.append (.item h3 .nil), h4.symm⟩
  | fin h ho ih =>
    obtain ⟨t, h1, h2⟩ := ih
    obtain ⟨o, h3, h4⟩ := Equiv.sim _ _ h2.symm _ ho
    cases h4 with
    | fin h4 => exact ⟨_, h1.append (.fin h3 .nil), h4.symm⟩
  | resume h ih =>
    obtain ⟨t, h1, h2⟩ := ih
    exact ⟨t, h1, h2.trans (hD _ h.paused)⟩

/-- If only the end of a pass may get lost: the same samples are observed. -/
theorem History.run_upToEnd (hD : D.ResumesUpToEnd) {evs : List (Ev α)} {s : σ} (h : D.History evs s) :
    ∃ evs' t, D.Run D.init evs' t ∧ itemsOf evs' = itemsOf evs ∧ D.Equiv t s := by
  induction h with
  | init => exact ⟨_, _, .nil, rfl, .refl _⟩
  | item h ho ih =>
    obtain ⟨evs', t, h1, e, h2⟩ := ih
    obtain ⟨o, h3, h4⟩ := Equiv.sim _ _ h2.symm _ ho
    cases h4 with
    | item h4 => exact ⟨_, _, h1.append (.item h3 .nil), by simp [e, itemsOf], h4.symm⟩
  | fin h ho ih =>
    obtain ⟨evs', t, h1, e, h2⟩ := ih
    obtain ⟨o, h3, h4⟩ := Equiv.sim _ _ h2.symm _ ho
    cases h4 with
    | fin h4 => exact ⟨_, _, h1.append (.fin h3 .nil), by simp [e, itemsOf], h4.symm⟩
  | resume h ih =>
    obtain ⟨evs', t, h1, e, h2⟩ := ih
    rcases hD _ h.paused with h3 | ⟨s', h3, h4⟩
    · exact ⟨evs', t, h1, e, h2.trans h3⟩
    · obtain ⟨o, h5, h6⟩ := Equiv.sim _ _ h2.symm _ h3
      cases h6 with
      | fin h6 => exact ⟨_, _, h1.append (.fin h5 .nil), by simp [e, itemsOf], h6.symm.trans h4⟩

/-- A run of a dataset that never ends consists of samples. -/
theorem Run.items_of_neverEnds (hN : D.NeverEnds) {s s' : σ} {evs : List (Ev α)} (hs : D.Paused false s) (h : D.Run s evs s') :
    D.Items s (itemsOf evs) s' ∧ evs = (itemsOf evs).map .item := by
  unfold Items
  induction h with
  | nil => exact ⟨.nil, rfl⟩
  | item ho _ ih =>
    obtain ⟨h1, h2⟩ := ih (.item hs ho)
    exact ⟨.item ho h1, by rw [itemsOf, List.map_cons, ← h2]⟩
  | fin ho _ ih => exact absurd ho (hN _ _ hs)

end Dataset

end Verif.Stream
