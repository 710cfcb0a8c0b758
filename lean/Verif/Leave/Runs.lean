import Verif.Leave.Lemmas
import Verif.Stream.Example

/-! # Lives and runs -/

namespace Verif.Stream

variable {σ α κ : Type} {D : Dataset σ α κ} {leave : σ → σ}

theorem Op.items_append (a b : List (Op α)) : Op.items (a ++ b) = Op.items a ++ Op.items b := by
  induction a with
  | nil => rfl
  | cons o a ih => cases o <;> simp [Op.items, ih]

theorem Op.items_noEnds (l : List (Op α)) : Op.items (noEnds l) = Op.items l := by
  induction l with
  | nil => rfl
  | cons o a ih => cases o <;> simp_all [Op.items, noEnds]

/-- A life in which no loop is left is a history. -/
theorem Dataset.Life.history {ops : List (Op α)} {s : σ} (h : D.Life leave ops s) (hn : noLeave ops = ops) :
    ∃ evs, D.History evs s ∧ itemsOf evs = Op.items ops := by
  induction h with
  | init => exact ⟨_, .init, rfl⟩
  | item _ ho ih =>
    rw [noLeave_append] at hn
    obtain ⟨evs, h1, h2⟩ := ih (List.append_inj_left' hn rfl)
    exact ⟨_, .item h1 ho, by simp [Op.items_append, h2, itemsOf, Op.items]⟩
  | fin _ ho ih =>
    rw [noLeave_append] at hn
    obtain ⟨evs, h1, h2⟩ := ih (List.append_inj_left' hn rfl)
    exact ⟨_, .fin h1 ho, by simp [Op.items_append, h2, itemsOf, Op.items]⟩
  | resume _ ih =>
    rw [noLeave_append] at hn
    obtain ⟨evs, h1, h2⟩ := ih (List.append_inj_left' hn rfl)
    exact ⟨_, .resume h1, by simp [Op.items_append, h2, Op.items]⟩
  | @leave ops _ h _ =>
    have h1 := congrArg List.length hn
    rw [noLeave_append] at h1
    have h2 : (noLeave ops).length ≤ ops.length := List.length_filter_le _ _
    simp [noLeave] at h1 h2
    omega

/-- A life without leaving and resuming is a run. -/
theorem Dataset.Life.run {ops : List (Op α)} {s : σ} (h : D.Life leave ops s) (hn : noLeave ops = ops) (hr : Op.resume ∉ ops) :
    ∃ evs, D.Run D.init evs s ∧ itemsOf evs = Op.items ops := by
  induction h with
  | init => exact ⟨_, .nil, rfl⟩
  | item _ ho ih =>
    rw [noLeave_append] at hn
    obtain ⟨evs, h1, h2⟩ := ih (List.append_inj_left' hn rfl) (by simp_all)
    exact ⟨_, h1.append (.item ho .nil), by simp [Op.items_append, h2, itemsOf, Op.items]⟩
  | fin _ ho ih =>
    rw [noLeave_append] at hn
    obtain ⟨evs, h1, h2⟩ := ih (List.append_inj_left' hn rfl) (by simp_all)
    exact ⟨_, h1.append (.fin ho .nil), by simp [Op.items_append, h2, itemsOf, Op.items]⟩
  | resume _ ih => simp at hr
  | @leave ops _ h _ =>
    have h1 := congrArg List.length hn
    rw [noLeave_append] at h1
    have h2 : (noLeave ops).length ≤ ops.length := List.length_filter_le _ _
    simp [noLeave] at h1 h2
    omega

theorem Dataset.LeavesExactly.upToEnd (h : D.LeavesExactly leave) : D.LeavesUpToEnd leave := by
  intro ops t ht
  obtain ⟨s, h1, h2⟩ := h ops t ht
  refine ⟨_, s, h1, by simp [noLeave], ?_, h2⟩
  unfold noEnds noLeave
  rw [List.filter_filter]
  congr 1
  funext o
  cases o <;> rfl

/-- If, moreover, the dataset resumes: with loops left and processes interrupted at any points, in all loops and processes together the same samples are delivered as in one run
in which nothing of this happens, and what follows is the same. -/
theorem Dataset.LeavesUpToEnd.run (h : D.LeavesUpToEnd leave) (hR : D.ResumesUpToEnd) {ops : List (Op α)} {t : σ} (ht : D.Life leave ops t) :
    ∃ evs s, D.Run D.init evs s ∧ itemsOf evs = Op.items ops ∧ D.Equiv s t := by
  obtain ⟨ops', s, h1, h2, h3, h4⟩ := h ops t ht
  obtain ⟨evs, h5, h6⟩ := h1.history h2
  obtain ⟨evs', s', h7, h8, h9⟩ := h5.run_upToEnd hR
  refine ⟨evs', s', h7, ?_, h9.trans h4⟩
  rw [h8, h6, ← Op.items_noEnds, h3, Op.items_noEnds]

/-! ### For examples -/

/-- A call of `next`, with at most `fuel` steps. -/
def Dataset.next (D : Dataset σ α κ) : Nat → σ → Option (Ev α × σ)
  | 0, _ => none
  | n + 1, s =>
    match D.step s with
    | .yield a s' => some (.item a, s')
    | .skip s' => D.next n s'
    | .stop s' => some (.fin, s')
    | .raise => none

theorem Dataset.next_obs {n : Nat} {s s' : σ} {e : Ev α} (h : D.next n s = some (e, s')) :
    match e with
    | .item a => Obs D.step s (.item a s')
    | .fin => Obs D.step s (.fin s')
    | .err => False := by
  induction n generalizing s with
  | zero => cases h
  | succ n ih =>
    simp only [Dataset.next] at h
    split at h
    · next h1 => cases h; exact .item h1
    · next h1 =>
      have := ih h
      cases e with
      | item => exact .skip h1 this
      | fin => exact .skip h1 this
      | err => exact this
    · next h1 => cases h; exact .fin h1
    · cases h

/-- Play a script: `true` = leave the loop, `false` = call `next`. -/
def Dataset.play (D : Dataset σ α κ) (leave : σ → σ) (fuel : Nat) : List Bool → σ → Option (List (Op α) × σ)
  | [], s => some ([], s)
  | true :: l, s => (D.play leave fuel l (leave s)).map fun p => (.leave :: p.1, p.2)
  | false :: l, s =>
    match D.next fuel s with
    | some (.item a, s') => (D.play leave fuel l s').map fun p => (.item a :: p.1, p.2)
    | some (.fin, s') => (D.play leave fuel l s').map fun p => (.fin :: p.1, p.2)
    | _ => none

theorem Dataset.play_life {fuel : Nat} {l : List Bool} {s s' : σ} {ops ops' : List (Op α)} (h : D.play leave fuel l s = some (ops', s'))
    (hs : D.Life leave ops s) : D.Life leave (ops ++ ops') s' := by
  induction l generalizing s ops ops' with
  | nil => cases h; simpa using hs
  | cons b l ih =>
    cases b with
    | true =>
      simp only [Dataset.play, Option.map_eq_some_iff] at h
      obtain ⟨⟨o, t⟩, h1, h2⟩ := h
      cases h2
      simpa using ih h1 (.leave hs)
    | false =>
      simp only [Dataset.play] at h
      split at h
      · next a s1 h1 =>
        simp only [Option.map_eq_some_iff] at h
        obtain ⟨⟨o, t⟩, h2, h3⟩ := h
        cases h3
        simpa using ih h2 (.item hs (Dataset.next_obs h1))
      · next s1 h1 =>
        simp only [Option.map_eq_some_iff] at h
        obtain ⟨⟨o, t⟩, h2, h3⟩ := h
        cases h3
        simpa using ih h2 (.fin hs (Dataset.next_obs h1))
      · cases h

theorem Dataset.play_noResume {fuel : Nat} {l : List Bool} {s s' : σ} {ops : List (Op α)} (h : D.play leave fuel l s = some (ops, s')) : Op.resume ∉ ops := by
  induction l generalizing s ops with
  | nil => cases h; simp
  | cons b l ih =>
    cases b with
    | true =>
      simp only [Dataset.play, Option.map_eq_some_iff] at h
      obtain ⟨⟨o, t⟩, h1, h2⟩ := h
      cases h2
      simpa using ih h1
    | false =>
      simp only [Dataset.play] at h
      split at h
      · next a s1 h1 =>
        simp only [Option.map_eq_some_iff] at h
        obtain ⟨⟨o, t⟩, h2, h3⟩ := h
        cases h3
        simpa using ih h2
      · next s1 h1 =>
        simp only [Option.map_eq_some_iff] at h
        obtain ⟨⟨o, t⟩, h2, h3⟩ := h
        cases h3
        simpa using ih h2
      · cases h

theorem itemsOf_prefix {es fs : List (Ev α)} (h : es <+: fs) : itemsOf es <+: itemsOf fs := by
  obtain ⟨l, rfl⟩ := h
  rw [Dataset.itemsOf_append]
  exact List.prefix_append _ _

/-- A run with left loops delivers other samples than one without. -/
def leaveDiffers [DecidableEq α] (D : Dataset σ α κ) (leave : σ → σ) (fuel n : Nat) (l : List Bool) : Bool :=
  match D.play leave fuel (List.replicate n false) D.init, D.play leave fuel l D.init with
  | some (ops, _), some (ops', _) => decide ((Op.items ops').length ≤ (Op.items ops).length) && decide ((Op.items ops).take (Op.items ops').length ≠ Op.items ops')
  | _, _ => false

theorem leaveDiffers_spec [DecidableEq α] {fuel n : Nat} {l : List Bool} (h : leaveDiffers D leave fuel n l = true) : ¬ D.LeavesUpToEnd leave := by
  intro hl
  unfold leaveDiffers at h
  split at h
  · rename_i ops s ops' s' h1 h2
    rw [Bool.and_eq_true] at h
    have h3 := of_decide_eq_true h.1
    have h4 := of_decide_eq_true h.2
    have k1 : D.Life leave ops s := by simpa using Dataset.play_life h1 .init
    have k2 : D.Life leave ops' s' := by simpa using Dataset.play_life h2 .init
    have hn : noLeave ops = ops := by
      have : ∀ n (s : σ) ops s', D.play leave fuel (List.replicate n false) s = some (ops, s') → noLeave ops = ops := by
        intro n
        induction n with
        | zero => intro s ops s' h; cases h; rfl
        | succ n ih =>
          intro s ops s' h
          simp only [List.replicate_succ, Dataset.play] at h
          split at h
          · simp only [Option.map_eq_some_iff] at h
            obtain ⟨⟨o, t⟩, h2, h3⟩ := h
            cases h3
            have := ih _ _ _ h2
            simp only [noLeave] at this ⊢
            simp [this]
          · simp only [Option.map_eq_some_iff] at h
            obtain ⟨⟨o, t⟩, h2, h3⟩ := h
            cases h3
            have := ih _ _ _ h2
            simp only [noLeave] at this ⊢
            simp [this]
          · cases h
      exact this _ _ _ _ h1
    obtain ⟨evs, r1, r2⟩ := k1.run hn (Dataset.play_noResume h1)
    obtain ⟨ops'', s'', g1, g2, g3, _⟩ := hl _ _ k2
    have g4 : Op.resume ∉ ops'' := by
      intro hm
      have : Op.resume ∈ noEnds ops'' := List.mem_filter.2 ⟨hm, rfl⟩
      rw [g3] at this
      exact Dataset.play_noResume h2 (List.mem_filter.1 this).1
    obtain ⟨evs', r3, r4⟩ := g1.run g2 g4
    have e : Op.items ops'' = Op.items ops' := by rw [← Op.items_noEnds, g3, Op.items_noEnds]
    rw [e] at r4
    have hp : itemsOf evs' <+: itemsOf evs := by
      rcases r1.prefix r3 with h | h
      · have h5 := itemsOf_prefix h
        rw [List.IsPrefix.eq_of_length_le h5 (by rw [r2, r4]; exact h3)]
        exact List.prefix_rfl
      · exact itemsOf_prefix h
    rw [r2, r4] at hp
    exact h4 (List.prefix_iff_eq_take.1 hp).symm
  · cases h

end Verif.Stream
