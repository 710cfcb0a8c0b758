import Verif.Stream.Multi
import Verif.Stream.History

/-! # Progress: every call of `next` returns -/

namespace Verif.Stream

variable {σ κ α β ι S X KX C C' : Type}

/-- In an uninterrupted run every call of `next` returns a sample, or (only if `ends`) the end of the pass. -/
def Dataset.Flows (D : Dataset σ α κ) (ends : Bool) : Prop :=
  ∀ evs s, D.Run D.init evs s → (∃ a s', Obs D.step s (.item a s')) ∨ (ends = true ∧ ∃ s', Obs D.step s (.fin s'))

/-- An action that makes progress: it keeps `J`, does not raise or reset, ends the pass only if `ends`; `μ` decreases until
something is delivered. `inner`: whether passes of the inner datasets end. -/
def Act.Goes (inner ends : Bool) (I : ι → Prop) (J : X → Prop) (μ : X → Nat) (x : X) : Act ι α β X → Prop
  | .emit _ x' => J x'
  | .halt x' => ends = true ∧ J x'
  | .tau x' => J x' ∧ μ x' < μ x
  | .reset _ => False
  | .pull i f g => I i ∧ (∀ a, J (f a) ∧ μ (f a) < μ x) ∧ (inner = true → J g ∧ μ g < μ x)
  | .raise => False

/-- Progress of a wrapper from progress of its sources. -/
theorem wobs_goes {src : Source ι S α} {W : Wrapper ι α β X KX} {inner ends : Bool} {P : S → Prop} {I : ι → Prop}
    (hsrc : ∀ i s, I i → P s → (∃ a s', Obs (src.pull i) s (.item a s') ∧ P s') ∨ (inner = true ∧ ∃ s', Obs (src.pull i) s (.fin s') ∧ P s'))
    (J : X → Prop) (μ : X → Nat) (hact : ∀ x, J x → (W.act x).Goes inner ends I J μ x) (n : Nat) :
    ∀ s x, μ x = n → P s → J x → (∃ b s' x', WObs src W s x (.item b (s', x')) ∧ P s' ∧ J x') ∨
      (ends = true ∧ ∃ s' x', WObs src W s x (.fin (s', x')) ∧ P s' ∧ J x') := by
  induction n using Nat.strongRecOn with
  | _ n ih =>
    intro s x hx hs hj
    have h := hact x hj
    cases ha : W.act x with
    | emit b x' => rw [ha] at h; exact .inl ⟨b, s, x', .emit ha, hs, h⟩
    | halt x' => rw [ha] at h; exact .inr ⟨h.1, s, x', .halt ha, hs, h.2⟩
    | raise => rw [ha] at h; exact h.elim
    | reset x' => rw [ha] at h; exact h.elim
    | tau x' =>
      rw [ha] at h
      rcases ih (μ x') (hx ▸ h.2) s x' rfl hs h.1 with ⟨b, s', y, h1, h2, h3⟩ | ⟨he, s', y, h1, h2, h3⟩
      · exact .inl ⟨b, s', y, .tau ha h1, h2, h3⟩
      · exact .inr ⟨he, s', y, .tau ha h1, h2, h3⟩
    | pull i f g =>
      rw [ha] at h
      obtain ⟨hi, hf, hg⟩ := h
      rcases hsrc i s hi hs with ⟨a, t, h4, h5⟩ | ⟨hinner, t, h4, h5⟩
      · rcases ih (μ (f a)) (hx ▸ (hf a).2) t (f a) rfl h5 (hf a).1 with ⟨b, s', y, h1, h2, h3⟩ | ⟨he, s', y, h1, h2, h3⟩
        · exact .inl ⟨b, s', y, .pullItem ha h4 h1, h2, h3⟩
        · exact .inr ⟨he, s', y, .pullItem ha h4 h1, h2, h3⟩
      · obtain ⟨h6, h7⟩ := hg hinner
        rcases ih (μ g) (hx ▸ h7) t g rfl h5 h6 with ⟨b, s', y, h1, h2, h3⟩ | ⟨he, s', y, h1, h2, h3⟩
        · exact .inl ⟨b, s', y, .pullFin ha h4 h1, h2, h3⟩
        · exact .inr ⟨he, s', y, .pullFin ha h4 h1, h2, h3⟩

/-- Progress from an invariant. -/
theorem flows_of {D : Dataset σ α κ} {ends : Bool} (P : σ → Prop) (hi : P D.init)
    (h : ∀ s, P s → (∃ a s', Obs D.step s (.item a s') ∧ P s') ∨ (ends = true ∧ ∃ s', Obs D.step s (.fin s') ∧ P s')) : D.Flows ends := by
  have key : ∀ {s evs t}, D.Run s evs t → P s → P t := by
    intro s evs t hr
    induction hr with
    | nil => exact id
    | item ho _ ih =>
      intro hs
      rcases h _ hs with ⟨a, s', h1, h2⟩ | ⟨_, s', h1, h2⟩
      · cases h1.det ho; exact ih h2
      · cases h1.det ho
    | fin ho _ ih =>
      intro hs
      rcases h _ hs with ⟨a, s', h1, h2⟩ | ⟨_, s', h1, h2⟩
      · cases h1.det ho
      · cases h1.det ho; exact ih h2
  intro evs s hr
  rcases h s (key hr hi) with ⟨a, s', h1, _⟩ | ⟨he, s', h1, _⟩
  · exact .inl ⟨a, s', h1⟩
  · exact .inr ⟨he, s', h1⟩

theorem Dataset.Flows.step {D : Dataset σ α κ} {e : Bool} (hD : D.Flows e) {s : σ} (h : ∃ evs, D.Run D.init evs s) :
    (∃ a s', Obs D.step s (.item a s') ∧ ∃ evs, D.Run D.init evs s') ∨ (e = true ∧ ∃ s', Obs D.step s (.fin s') ∧ ∃ evs, D.Run D.init evs s') := by
  obtain ⟨evs, h⟩ := h
  rcases hD _ _ h with ⟨a, s', h1⟩ | ⟨he, s', h1⟩
  · exact .inl ⟨a, s', h1, _, h.append (.item h1 .nil)⟩
  · exact .inr ⟨he, s', h1, _, h.append (.fin h1 .nil)⟩

theorem wrap_flows {D : Dataset σ α κ} {W : Wrapper Unit α β X KX} {inner ends : Bool} (J : X → Prop) (μ : X → Nat) (hi : J W.init)
    (hact : ∀ x, J x → (W.act x).Goes inner ends (fun _ => True) J μ x) (hD : D.Flows inner) : (wrap D W).Flows ends := by
  refine flows_of (fun p => (∃ evs, D.Run D.init evs p.1) ∧ J p.2) ⟨⟨_, .nil⟩, hi⟩ ?_
  rintro ⟨s, x⟩ ⟨hs, hx⟩
  rcases wobs_goes (src := Source.single D) (P := fun s => ∃ evs, D.Run D.init evs s) (I := fun _ => True) (fun _ s _ h => hD.step h) J μ hact _ s x rfl hs hx with
    ⟨b, s', y, h1, h2, h3⟩ | ⟨he, s', y, h1, h2, h3⟩
  · exact .inl ⟨b, (s', y), wrap_obs.2 h1, h2, h3⟩
  · exact .inr ⟨he, (s', y), wrap_obs.2 h1, h2, h3⟩

theorem wrapMulti_flows {D : Nat → Dataset σ α κ} {W : Wrapper Nat α β X KX} {inner ends : Bool} (I : Nat → Prop) (J : X → Prop) (μ : X → Nat)
    (hi : J W.init) (hact : ∀ x, J x → (W.act x).Goes inner ends I J μ x) (hD : ∀ i, I i → (D i).Flows inner) : (wrapMulti D W).Flows ends := by
  refine flows_of (fun p => (∀ i, I i → ∃ evs, (D i).Run (D i).init evs (p.1 i)) ∧ J p.2) ⟨fun _ _ => ⟨_, .nil⟩, hi⟩ ?_
  rintro ⟨S, x⟩ ⟨hs, hx⟩
  have hsrc : ∀ i S, I i → (∀ i, I i → ∃ evs, (D i).Run (D i).init evs (S i)) →
      (∃ a S', Obs ((Source.multi D).pull i) S (.item a S') ∧ ∀ i, I i → ∃ evs, (D i).Run (D i).init evs (S' i)) ∨
      (inner = true ∧ ∃ S', Obs ((Source.multi D).pull i) S (.fin S') ∧ ∀ i, I i → ∃ evs, (D i).Run (D i).init evs (S' i)) := by
    intro i S hi hS
    have upd_ok : ∀ t, (∃ evs, (D i).Run (D i).init evs t) → ∀ j, I j → ∃ evs, (D j).Run (D j).init evs (upd S i t j) := by
      intro t ht j hj
      by_cases e : j = i
      · subst e; rw [upd_same]; exact ht
      · rw [upd_other _ e]; exact hS j hj
    rcases (hD i hi).step (hS i hi) with ⟨a, t, h1, h2⟩ | ⟨he, t, h1, h2⟩
    · exact .inl ⟨a, _, multi_obs_of h1, upd_ok t h2⟩
    · exact .inr ⟨he, _, multi_obs_of h1, upd_ok t h2⟩
  rcases wobs_goes hsrc J μ hact _ S x rfl hs hx with ⟨b, s', y, h1, h2, h3⟩ | ⟨he, s', y, h1, h2, h3⟩
  · exact .inl ⟨b, (s', y), wrapMulti_obs.2 h1, h2, h3⟩
  · exact .inr ⟨he, (s', y), wrapMulti_obs.2 h1, h2, h3⟩

/-- A dataset that is live and never ends makes progress. -/
theorem Dataset.Live.flows {D : Dataset σ α κ} (h : D.Live) : D.Flows true := by
  intro evs s hr
  obtain ⟨o, h1, h2⟩ := h s (hr.paused .init)
  cases o with
  | item a s' => exact .inl ⟨a, s', h1⟩
  | fin s' => exact .inr ⟨rfl, s', h1⟩
  | err => exact absurd rfl h2

theorem Dataset.Live.flows_endless {D : Dataset σ α κ} (h : D.Live) (hN : D.NeverEnds) : D.Flows false := by
  intro evs s hr
  obtain ⟨o, h1, h2⟩ := h s (hr.paused .init)
  cases o with
  | item a s' => exact .inl ⟨a, s', h1⟩
  | fin s' => exact absurd h1 (hN _ _ (hr.paused .init))
  | err => exact absurd rfl h2

theorem Dataset.Paused.history {D : Dataset σ α κ} {s : σ} (h : D.Paused false s) : ∃ evs, D.History evs s := by
  induction h with
  | init => exact ⟨_, .init⟩
  | item _ ho ih => obtain ⟨evs, ih⟩ := ih; exact ⟨_, .item ih ho⟩
  | fin _ ho ih => obtain ⟨evs, ih⟩ := ih; exact ⟨_, .fin ih ho⟩
  | resume _ ih => obtain ⟨evs, ih⟩ := ih; exact ⟨_, .resume ih⟩
  | reset hr => cases hr

/-- Progress in every history, for a dataset that resumes. -/
theorem Dataset.Flows.always {D : Dataset σ α κ} {e : Bool} (h : D.Flows e) (hD : D.ResumesUpToEnd) {s : σ} (hs : D.Paused false s) :
    (∃ a s', Obs D.step s (.item a s')) ∨ (e = true ∧ ∃ s', Obs D.step s (.fin s')) := by
  obtain ⟨evs, h1⟩ := hs.history
  obtain ⟨evs', t, h2, _, h3⟩ := h1.run_upToEnd hD
  rcases h _ _ h2 with ⟨a, t', h4⟩ | ⟨he, t', h4⟩
  · obtain ⟨o, h5, h6⟩ := Dataset.Equiv.sim _ _ h3 _ h4
    cases h6 with
    | item h6 => exact .inl ⟨_, _, h5⟩
  · obtain ⟨o, h5, h6⟩ := Dataset.Equiv.sim _ _ h3 _ h4
    cases h6 with
    | fin h6 => exact .inr ⟨he, _, h5⟩

/-- In every history of iterating, saving and going on in a new process, every call of `next` returns a sample, or (only if `ends`) the end of the pass. -/
def Dataset.FlowsAlways (D : Dataset σ α κ) (ends : Bool) : Prop :=
  ∀ s, D.Paused false s → (∃ a s', Obs D.step s (.item a s')) ∨ (ends = true ∧ ∃ s', Obs D.step s (.fin s'))

theorem Dataset.Flows.flowsAlways {D : Dataset σ α κ} {e : Bool} (h : D.Flows e) (hD : D.ResumesExactly) : D.FlowsAlways e :=
  fun _ hs => h.always (fun s hs => .inl (hD s hs)) hs

/-- As `Act.Goes`, for samples that satisfy `Y`. -/
def Act.GoesOn (Y : α → Prop) (inner ends : Bool) (J : X → Prop) (μ : X → Nat) (x : X) : Act Unit α β X → Prop
  | .emit _ x' => J x'
  | .halt x' => ends = true ∧ J x'
  | .tau x' => J x' ∧ μ x' < μ x
  | .reset _ => False
  | .pull _ f g => (∀ a, Y a → J (f a) ∧ μ (f a) < μ x) ∧ (inner = true → J g ∧ μ g < μ x)
  | .raise => False

theorem Act.Goes.on {Y : α → Prop} {inner ends : Bool} {J : X → Prop} {μ : X → Nat} {x : X} {a : Act Unit α β X} (h : a.Goes inner ends (fun _ => True) J μ x) :
    a.GoesOn Y inner ends J μ x := by
  cases a with
  | emit b x' => exact h
  | halt x' => exact h
  | tau x' => exact h
  | reset x' => exact h
  | raise => exact h
  | pull i f g => exact ⟨fun a _ => h.2.1 a, h.2.2⟩

/-- Progress of a wrapper in every history: the invariant holds after resuming, too. -/
theorem wrap_flowsAlways' {D : Dataset σ α κ} {W : Wrapper Unit α β X KX} {inner ends : Bool} (J : X → Prop) (μ : X → Nat) (hi : J W.init)
    (hact : ∀ x, J x → (W.act x).GoesOn (D.Yields false) inner ends J μ x) (hres : ∀ x, J x → J (W.resume (W.save x))) (hD : D.FlowsAlways inner) :
    (wrap D W).FlowsAlways ends := by
  have step' : ∀ n s x, μ x = n → D.Paused false s → J x → (∃ b s' x', WObs (Source.single D) W s x (.item b (s', x')) ∧ D.Paused false s' ∧ J x') ∨
      (ends = true ∧ ∃ s' x', WObs (Source.single D) W s x (.fin (s', x')) ∧ D.Paused false s' ∧ J x') := by
    intro n
    induction n using Nat.strongRecOn with
    | _ n ih =>
      intro s x hx hs hj
      have h := hact x hj
      cases ha : W.act x with
      | emit b x' => rw [ha] at h; exact .inl ⟨b, s, x', .emit ha, hs, h⟩
      | halt x' => rw [ha] at h; exact .inr ⟨h.1, s, x', .halt ha, hs, h.2⟩
      | raise => rw [ha] at h; exact h.elim
      | reset x' => rw [ha] at h; exact h.elim
      | tau x' =>
        rw [ha] at h
        rcases ih (μ x') (hx ▸ h.2) s x' rfl hs h.1 with ⟨b, s', y, h1, h2, h3⟩ | ⟨he, s', y, h1, h2, h3⟩
        · exact .inl ⟨b, s', y, .tau ha h1, h2, h3⟩
        · exact .inr ⟨he, s', y, .tau ha h1, h2, h3⟩
      | pull i f g =>
        rw [ha] at h
        obtain ⟨hf, hg⟩ := h
        rcases hD s hs with ⟨a, t, h4⟩ | ⟨hinner, t, h4⟩
        · rcases ih (μ (f a)) (hx ▸ (hf a ⟨s, t, hs, h4⟩).2) t (f a) rfl (.item hs h4) (hf a ⟨s, t, hs, h4⟩).1 with ⟨b, s', y, h1, h2, h3⟩ | ⟨he, s', y, h1, h2, h3⟩
          · exact .inl ⟨b, s', y, .pullItem ha h4 h1, h2, h3⟩
          · exact .inr ⟨he, s', y, .pullItem ha h4 h1, h2, h3⟩
        · obtain ⟨h6, h7⟩ := hg hinner
          rcases ih (μ g) (hx ▸ h7) t g rfl (.fin hs h4) h6 with ⟨b, s', y, h1, h2, h3⟩ | ⟨he, s', y, h1, h2, h3⟩
          · exact .inl ⟨b, s', y, .pullFin ha h4 h1, h2, h3⟩
          · exact .inr ⟨he, s', y, .pullFin ha h4 h1, h2, h3⟩
  have step : ∀ p : σ × X, D.Paused false p.1 → J p.2 → (∃ b q, Obs (wrap D W).step p (.item b q) ∧ D.Paused false q.1 ∧ J q.2) ∨
      (ends = true ∧ ∃ q, Obs (wrap D W).step p (.fin q) ∧ D.Paused false q.1 ∧ J q.2) := by
    rintro ⟨s, x⟩ hs hx
    rcases step' _ s x rfl hs hx with ⟨b, s', y, h1, h2, h3⟩ | ⟨he, s', y, h1, h2, h3⟩
    · exact .inl ⟨b, (s', y), wrap_obs.2 h1, h2, h3⟩
    · exact .inr ⟨he, (s', y), wrap_obs.2 h1, h2, h3⟩
  have key : ∀ {p : σ × X}, (wrap D W).Paused false p → D.Paused false p.1 ∧ J p.2 := by
    intro p hp
    induction hp with
    | init => exact ⟨.init, hi⟩
    | item _ ho ih =>
      rcases step _ ih.1 ih.2 with ⟨b, q, h1, h2⟩ | ⟨_, q, h1, h2⟩
      · cases h1.det ho; exact h2
      · cases h1.det ho
    | fin _ ho ih =>
      rcases step _ ih.1 ih.2 with ⟨b, q, h1, h2⟩ | ⟨_, q, h1, h2⟩
      · cases h1.det ho
      · cases h1.det ho; exact h2
    | resume _ ih => exact ⟨.resume ih.1, hres _ ih.2⟩
    | reset hr _ _ => cases hr
  intro p hp
  obtain ⟨h1, h2⟩ := key hp
  rcases step p h1 h2 with ⟨b, q, h, _⟩ | ⟨he, q, h, _⟩
  · exact .inl ⟨b, q, h⟩
  · exact .inr ⟨he, q, h⟩

theorem wrap_flowsAlways {D : Dataset σ α κ} {W : Wrapper Unit α β X KX} {inner ends : Bool} (J : X → Prop) (μ : X → Nat) (hi : J W.init)
    (hact : ∀ x, J x → (W.act x).Goes inner ends (fun _ => True) J μ x) (hres : ∀ x, J x → J (W.resume (W.save x))) (hD : D.FlowsAlways inner) :
    (wrap D W).FlowsAlways ends := wrap_flowsAlways' J μ hi (fun x hx => (hact x hx).on) hres hD

end Verif.Stream
