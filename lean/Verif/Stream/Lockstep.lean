import Verif.Stream.Lemmas

/-! # Lock-step bisimulation of wrapper states, and forgetting the keys -/

namespace Verif.Stream

variable {σ α β γ κ ι X KX C : Type}

/-- The same action, up to a relation on the next wrapper states. -/
inductive Act.Rel (R : X → X → Prop) : Act ι α β X → Act ι α β X → Prop where
  | emit {b x y} : R x y → Act.Rel R (.emit b x) (.emit b y)
  | halt {x y} : R x y → Act.Rel R (.halt x) (.halt y)
  | tau {x y} : R x y → Act.Rel R (.tau x) (.tau y)
  | pull {i f f' g g'} : (∀ a, R (f a) (f' a)) → R g g' → Act.Rel R (.pull i f g) (.pull i f' g')
  | reset {x y} : R x y → Act.Rel R (.reset x) (.reset y)
  | raise : Act.Rel R .raise .raise

theorem Act.Rel.flip {R : X → X → Prop} {a b : Act ι α β X} (h : Act.Rel R a b) :
    Act.Rel (fun x y => R y x) b a := by
  cases h with
  | emit h => exact .emit h
  | halt h => exact .halt h
  | tau h => exact .tau h
  | pull h h' => exact .pull h h'
  | reset h => exact .reset h
  | raise => exact .raise

section
variable {S : Type} {src : Source ι S α} {W : Wrapper ι α β X KX}

theorem lockstep_sim {R : X → X → Prop} (hR : ∀ x y, R x y → Act.Rel R (W.act x) (W.act y)) :
    Sim (wrapStep src W) (wrapStep src W) (fun p q => p.1 = q.1 ∧ R p.2 q.2) := by
  rintro ⟨s, x⟩ ⟨t, y⟩ ⟨hst, hxy⟩ o ho
  simp only at hst hxy
  subst hst
  replace ho := wobs_iff.1 ho
  suffices h : ∃ o', WObs src W s y o' ∧ Out.Rel (fun p q => p.1 = q.1 ∧ R p.2 q.2) o o' by
    obtain ⟨o', h1, h2⟩ := h
    exact ⟨o', wobs_iff.2 h1, h2⟩
  induction ho generalizing y with
  | @emit s x b x' h =>
    have := hR _ _ hxy; rw [h] at this
    generalize hy : W.act y = ay at this
    cases this with
    | emit h' => exact ⟨_, .emit hy, .item ⟨rfl, h'⟩⟩
  | @halt s x x' h =>
    have := hR _ _ hxy; rw [h] at this
    generalize hy : W.act y = ay at this
    cases this with
    | halt h' => exact ⟨_, .halt hy, .fin ⟨rfl, h'⟩⟩
  | @raise s x h =>
    have := hR _ _ hxy; rw [h] at this
    generalize hy : W.act y = ay at this
    cases this with
    | raise => exact ⟨_, .raise hy, .err⟩
  | @tau s x x' o h _ ih =>
    have := hR _ _ hxy; rw [h] at this
    generalize hy : W.act y = ay at this
    cases this with
    | tau h' =>
      obtain ⟨o', h1, h2⟩ := ih _ h'
      exact ⟨o', .tau hy h1, h2⟩
  | @reset s x x' o h _ ih =>
    have := hR _ _ hxy; rw [h] at this
    generalize hy : W.act y = ay at this
    cases this with
    | reset h' =>
      obtain ⟨o', h1, h2⟩ := ih _ h'
      exact ⟨o', .reset hy h1, h2⟩
  | @pullItem s x i f g a s' o h hs _ ih =>
    have := hR _ _ hxy; rw [h] at this
    generalize hy : W.act y = ay at this
    cases this with
    | pull h' h'' =>
      obtain ⟨o', h1, h2⟩ := ih _ (h' a)
      exact ⟨o', .pullItem hy hs h1, h2⟩
  | @pullFin s x i f g s' o h hs _ ih =>
    have := hR _ _ hxy; rw [h] at this
    generalize hy : W.act y = ay at this
    cases this with
    | pull h' h'' =>
      obtain ⟨o', h1, h2⟩ := ih _ h''
      exact ⟨o', .pullFin hy hs h1, h2⟩
  | @pullErr s x i f g h hs =>
    have := hR _ _ hxy; rw [h] at this
    generalize hy : W.act y = ay at this
    cases this with
    | pull h' h'' => exact ⟨_, .pullErr hy hs, .err⟩

end

/-- Related wrapper states over the same inner state are indistinguishable. -/
theorem wrap_equiv_lockstep {D : Dataset σ α κ} {W : Wrapper Unit α β X KX} {R : X → X → Prop}
    (hR : ∀ x y, R x y → Act.Rel R (W.act x) (W.act y)) (s : σ) {x y : X} (h : R x y) :
    (wrap D W).Equiv (s, x) (s, y) := by
  refine Dataset.Equiv.of_bisim (D := wrap D W) (R := fun p q => p.1 = q.1 ∧ R p.2 q.2) (lockstep_sim hR) ?_
    ⟨rfl, h⟩
  intro p q hpq o ho
  obtain ⟨o', h1, h2⟩ := lockstep_sim (src := Source.single D) (W := W) (R := fun x y => R y x)
    (fun x y hxy => (hR y x hxy).flip) p q ⟨hpq.1.symm, hpq.2⟩ o ho
  exact ⟨o', h1, h2.mono fun _ _ h => ⟨h.1.symm, h.2⟩⟩

/-! ### Forgetting a part of the samples -/

def Act.mapB (f : β → γ) : Act ι α β X → Act ι α γ X
  | .emit b x => .emit (f b) x
  | .halt x => .halt x
  | .tau x => .tau x
  | .pull i h g => .pull i h g
  | .reset x => .reset x
  | .raise => .raise

def Wrapper.mapOut (W : Wrapper ι α β X KX) (f : β → γ) : Wrapper ι α γ X KX :=
  { init := W.init, act := fun x => (W.act x).mapB f, save := W.save, resume := W.resume, reset := W.reset
    restoreSample := fun k => (W.restoreSample k).map f, hasSamples := W.hasSamples }

theorem wrapStep_mapOut {S : Type} {src : Source ι S α} {W : Wrapper ι α β X KX} {f : β → γ} (p : S × X) :
    wrapStep src (W.mapOut f) p = (wrapStep src W p).mapA f := by
  obtain ⟨s, x⟩ := p
  simp only [wrapStep, Wrapper.mapOut]
  cases W.act x <;> simp only [Act.mapB, Step.mapA]
  next i h g => cases src.pull i s <;> rfl

theorem Obs.mapA_of {step : σ → Step σ α} {f : α → β} {s : σ} {o : Out σ α} (h : Obs step s o) :
    match o with
    | .item a s' => Obs (fun s => (step s).mapA f) s (.item (f a) s')
    | .fin s' => Obs (fun s => (step s).mapA f) s (.fin s')
    | .err => Obs (fun s => (step s).mapA f) s .err := by
  induction h with
  | item h => exact .item (by simp only [h, Step.mapA])
  | fin h => exact .fin (by simp only [h, Step.mapA])
  | err h => exact .err (by simp only [h, Step.mapA])
  | @skip s s' o h _ ih =>
    cases o <;> exact .skip (by simp only [h, Step.mapA]) ih

theorem Obs.mapA_inv {step : σ → Step σ α} {f : α → β} {s : σ} {o : Out σ β}
    (h : Obs (fun s => (step s).mapA f) s o) :
    match o with
    | .item b s' => ∃ a, f a = b ∧ Obs step s (.item a s')
    | .fin s' => Obs step s (.fin s')
    | .err => Obs step s .err := by
  induction h with
  | @item s b s' h =>
    cases hs : step s <;> rw [hs] at h <;> cases h
    exact ⟨_, rfl, .item hs⟩
  | @fin s s' h =>
    cases hs : step s <;> rw [hs] at h <;> cases h
    exact .fin hs
  | @err s h =>
    cases hs : step s <;> rw [hs] at h <;> cases h
    exact .err hs
  | @skip s s' o h _ ih =>
    cases hs : step s <;> rw [hs] at h <;> cases h
    cases o with
    | item b t => obtain ⟨a, h1, h2⟩ := ih; exact ⟨a, h1, .skip hs h2⟩
    | fin t => exact .skip hs ih
    | err => exact .skip hs ih

theorem paused_mapOut {D : Dataset σ α κ} {f : α → β} {r : Bool} {s : σ} :
    (D.mapOut f).Paused r s ↔ D.Paused r s := by
  constructor
  · intro h
    induction h with
    | init => exact .init
    | item _ h ih => obtain ⟨a, _, h2⟩ := Obs.mapA_inv (step := D.step) h; exact .item ih h2
    | fin _ h ih => exact .fin ih (Obs.mapA_inv (step := D.step) h)
    | resume _ ih => exact .resume ih
    | reset hr _ ih => exact .reset hr ih
  · intro h
    induction h with
    | init => exact .init
    | item _ h ih => exact .item ih (Obs.mapA_of (f := f) h)
    | fin _ h ih => exact .fin ih (Obs.mapA_of (f := f) h)
    | resume _ ih => exact .resume (D := D.mapOut f) ih
    | reset hr _ ih => exact .reset (D := D.mapOut f) hr ih

theorem wrap_mapOut {D : Dataset σ α κ} {W : Wrapper Unit α β X KX} {f : β → γ} :
    (wrap D W).mapOut f = wrap D (W.mapOut f) := by
  simp only [wrap, Dataset.mapOut, Wrapper.mapOut, Dataset.mk.injEq, true_and, and_true]
  funext p
  exact (wrapStep_mapOut (src := Source.single D) (W := W) (f := f) p).symm

end Verif.Stream
