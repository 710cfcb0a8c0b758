import Verif.Stream.Spec

/-! # General lemmas: determinism, bisimulation, big steps of wrappers -/

namespace Verif.Stream

variable {σ τ α β κ ι S X KX C : Type}

theorem Obs.det {step : σ → Step σ α} {s : σ} {o o' : Out σ α} (h : Obs step s o) (h' : Obs step s o') :
    o = o' := by
  induction h generalizing o' with
  | item h => cases h' with
    | item h' => rw [h] at h'; cases h'; rfl
    | fin h' => rw [h] at h'; cases h'
    | err h' => rw [h] at h'; cases h'
    | skip h' => rw [h] at h'; cases h'
  | fin h => cases h' with
    | item h' => rw [h] at h'; cases h'
    | fin h' => rw [h] at h'; cases h'; rfl
    | err h' => rw [h] at h'; cases h'
    | skip h' => rw [h] at h'; cases h'
  | err h => cases h' with
    | item h' => rw [h] at h'; cases h'
    | fin h' => rw [h] at h'; cases h'
    | err h' => rfl
    | skip h' => rw [h] at h'; cases h'
  | skip h _ ih => cases h' with
    | item h' => rw [h] at h'; cases h'
    | fin h' => rw [h] at h'; cases h'
    | err h' => rw [h] at h'; cases h'
    | skip h' h2 => rw [h] at h'; cases h'; exact ih h2

theorem Obs.skip_iff {step : σ → Step σ α} {s s' : σ} {o : Out σ α} (h : step s = .skip s') :
    Obs step s o ↔ Obs step s' o := by
  constructor
  · intro h'
    cases h' with
    | item h' => rw [h] at h'; cases h'
    | fin h' => rw [h] at h'; cases h'
    | err h' => rw [h] at h'; cases h'
    | skip h' h2 => rw [h] at h'; cases h'; exact h2
  · exact .skip h

/-- Results related up to a relation on the successor states. -/
inductive Out.Rel (R : σ → τ → Prop) : Out σ α → Out τ α → Prop where
  | item {a s t} : R s t → Out.Rel R (.item a s) (.item a t)
  | fin {s t} : R s t → Out.Rel R (.fin s) (.fin t)
  | err : Out.Rel R .err .err

theorem Out.Rel.mono {R R' : σ → τ → Prop} (h : ∀ s t, R s t → R' s t) {o : Out σ α} {o' : Out τ α}
    (hr : Out.Rel R o o') : Out.Rel R' o o' := by
  cases hr with
  | item hr => exact .item (h _ _ hr)
  | fin hr => exact .fin (h _ _ hr)
  | err => exact .err

/-- One direction of a (weak) bisimulation between two step functions. -/
def Sim (f : σ → Step σ α) (g : τ → Step τ α) (R : σ → τ → Prop) : Prop :=
  ∀ s t, R s t → ∀ o, Obs f s o → ∃ o', Obs g t o' ∧ Out.Rel R o o'

namespace Dataset

variable {D : Dataset σ α κ}

theorem Equiv.refl (s : σ) : D.Equiv s s := fun _ => Iff.rfl
theorem Equiv.symm {s t : σ} (h : D.Equiv s t) : D.Equiv t s := fun e => (h e).symm
theorem Equiv.trans {s t u : σ} (h : D.Equiv s t) (h' : D.Equiv t u) : D.Equiv s u :=
  fun e => (h e).trans (h' e)

theorem Trace.sim {R : σ → σ → Prop} (hR : Sim D.step D.step R) {s t : σ} (h : R s t) {evs : List (Ev α)}
    (ht : D.Trace s evs) : D.Trace t evs := by
  induction ht generalizing t with
  | nil => exact .nil
  | item ho _ ih =>
    obtain ⟨o', h1, h2⟩ := hR _ _ h _ ho
    cases h2 with
    | item h2 => exact .item h1 (ih h2)
  | fin ho _ ih =>
    obtain ⟨o', h1, h2⟩ := hR _ _ h _ ho
    cases h2 with
    | fin h2 => exact .fin h1 (ih h2)
  | err ho =>
    obtain ⟨o', h1, h2⟩ := hR _ _ h _ ho
    cases h2 with
    | err => exact .err h1

/-- Bisimilar states are indistinguishable. -/
theorem Equiv.of_bisim {R : σ → σ → Prop} (h1 : Sim D.step D.step R)
    (h2 : Sim D.step D.step (fun s t => R t s)) {s t : σ} (h : R s t) : D.Equiv s t :=
  fun _ => ⟨Trace.sim h1 h, Trace.sim h2 h⟩

theorem Trace.item_inv {s s' : σ} {a : α} {es : List (Ev α)} (h : D.Trace s (.item a :: es))
    (ho : Obs D.step s (.item a s')) : D.Trace s' es := by
  cases h with
  | item h1 h2 => cases h1.det ho; exact h2

theorem Trace.fin_inv {s s' : σ} {es : List (Ev α)} (h : D.Trace s (.fin :: es))
    (ho : Obs D.step s (.fin s')) : D.Trace s' es := by
  cases h with
  | fin h1 h2 => cases h1.det ho; exact h2

theorem Equiv.sim : Sim D.step D.step D.Equiv := by
  intro s t h o ho
  cases o with
  | item a s' =>
    have : D.Trace t [.item a] := (h _).1 (.item ho .nil)
    cases this with
    | item h1 _ =>
      refine ⟨_, h1, .item fun es => ⟨fun hs => ?_, fun ht => ?_⟩⟩
      · exact ((h _).1 (.item ho hs)).item_inv h1
      · exact ((h _).2 (.item h1 ht)).item_inv ho
  | fin s' =>
    have : D.Trace t [.fin] := (h _).1 (.fin ho .nil)
    cases this with
    | fin h1 _ =>
      refine ⟨_, h1, .fin fun es => ⟨fun hs => ?_, fun ht => ?_⟩⟩
      · exact ((h _).1 (.fin ho hs)).fin_inv h1
      · exact ((h _).2 (.fin h1 ht)).fin_inv ho
  | err =>
    have : D.Trace t [.err] := (h _).1 (.err ho)
    cases this with
    | err h1 => exact ⟨_, h1, .err⟩

theorem Equiv.of_obs {s t : σ} (h : ∀ o, Obs D.step s o ↔ Obs D.step t o) : D.Equiv s t := by
  have aux : ∀ {s t : σ}, (∀ o, Obs D.step s o ↔ Obs D.step t o) → ∀ {evs}, D.Trace s evs →
      D.Trace t evs := by
    intro s t h evs ht
    cases ht with
    | nil => exact .nil
    | item h1 h2 => exact .item ((h _).1 h1) h2
    | fin h1 h2 => exact .fin ((h _).1 h1) h2
    | err h1 => exact .err ((h _).1 h1)
  exact fun _ => ⟨aux h, aux fun o => (h o).symm⟩

theorem Equiv.of_skip {s s' : σ} (h : D.step s = .skip s') : D.Equiv s s' :=
  Equiv.of_obs fun _ => Obs.skip_iff h

theorem Run.append {s s' s'' : σ} {es fs : List (Ev α)} (h : D.Run s es s') (h' : D.Run s' fs s'') :
    D.Run s (es ++ fs) s'' := by
  induction h with
  | nil => exact h'
  | item h1 _ ih => exact .item h1 (ih h')
  | fin h1 _ ih => exact .fin h1 (ih h')

theorem Run.paused {r : Bool} {s s' : σ} {es : List (Ev α)} (h : D.Run s es s') (hp : D.Paused r s) :
    D.Paused r s' := by
  induction h with
  | nil => exact hp
  | item h1 _ ih => exact ih (.item hp h1)
  | fin h1 _ ih => exact ih (.fin hp h1)

theorem Run.append_inv {s s'' : σ} {es fs : List (Ev α)} (h : D.Run s (es ++ fs) s'') :
    ∃ s', D.Run s es s' ∧ D.Run s' fs s'' := by
  induction es generalizing s with
  | nil => exact ⟨s, .nil, h⟩
  | cons e es ih =>
    cases h with
    | item h1 h2 =>
      obtain ⟨s', h3, h4⟩ := ih h2
      exact ⟨s', .item h1 h3, h4⟩
    | fin h1 h2 =>
      obtain ⟨s', h3, h4⟩ := ih h2
      exact ⟨s', .fin h1 h3, h4⟩

theorem Run.det {s t u : σ} {es : List (Ev α)} (h : D.Run s es t) (h' : D.Run s es u) : t = u := by
  induction h with
  | nil => cases h'; rfl
  | item h1 _ ih =>
    cases h' with
    | item h3 h4 => cases h1.det h3; exact ih h4
  | fin h1 _ ih =>
    cases h' with
    | fin h3 h4 => cases h1.det h3; exact ih h4

/-- Two runs from one state: one is a prefix of the other. -/
theorem Run.prefix {s t u : σ} {es fs : List (Ev α)} (h : D.Run s es t) (h' : D.Run s fs u) :
    es <+: fs ∨ fs <+: es := by
  induction h generalizing fs with
  | nil => exact .inl (List.nil_prefix)
  | item h1 _ ih =>
    cases h' with
    | nil => exact .inr (List.nil_prefix)
    | item h3 h4 =>
      cases h1.det h3
      rcases ih h4 with h | h
      · exact .inl (by simpa using h)
      · exact .inr (by simpa using h)
    | fin h3 h4 => cases h1.det h3
  | fin h1 _ ih =>
    cases h' with
    | nil => exact .inr (List.nil_prefix)
    | item h3 h4 => cases h1.det h3
    | fin h3 h4 =>
      cases h1.det h3
      rcases ih h4 with h | h
      · exact .inl (by simpa using h)
      · exact .inr (by simpa using h)

theorem Run.trace {s t : σ} {es : List (Ev α)} (h : D.Run s es t) : D.Trace s es := by
  induction h with
  | nil => exact .nil
  | item h1 _ ih => exact .item h1 ih
  | fin h1 _ ih => exact .fin h1 ih

theorem Run.equiv {s s' t : σ} {es : List (Ev α)} (h : D.Run s es s') (he : D.Equiv s t) :
    ∃ t', D.Run t es t' ∧ D.Equiv s' t' := by
  induction h generalizing t with
  | nil => exact ⟨t, .nil, he⟩
  | item h1 _ ih =>
    obtain ⟨o, h2, h3⟩ := Equiv.sim _ _ he _ h1
    cases h3 with
    | item h3 =>
      obtain ⟨t', h4, h5⟩ := ih h3
      exact ⟨t', .item h2 h4, h5⟩
  | fin h1 _ ih =>
    obtain ⟨o, h2, h3⟩ := Equiv.sim _ _ he _ h1
    cases h3 with
    | fin h3 =>
      obtain ⟨t', h4, h5⟩ := ih h3
      exact ⟨t', .fin h2 h4, h5⟩

theorem Items.append {s s' s'' : σ} {xs ys : List α} (h : D.Items s xs s') (h' : D.Items s' ys s'') :
    D.Items s (xs ++ ys) s'' := by
  unfold Dataset.Items at *
  rw [List.map_append]; exact Run.append h h'

theorem Items.paused {r : Bool} {s s' : σ} {xs : List α} (h : D.Items s xs s') (hp : D.Paused r s) :
    D.Paused r s' := Run.paused h hp

theorem Pass.paused {r : Bool} {s s' : σ} {xs : List α} (h : D.Pass s xs s') (hp : D.Paused r s) :
    D.Paused r s' := Run.paused h hp

@[simp] theorem itemsOf_append (es fs : List (Ev α)) : itemsOf (es ++ fs) = itemsOf es ++ itemsOf fs := by
  induction es with
  | nil => rfl
  | cons e es ih => cases e <;> simp [itemsOf, ih]

@[simp] theorem itemsOf_map (xs : List α) : itemsOf (xs.map Ev.item) = xs := by
  induction xs with
  | nil => rfl
  | cons x xs ih => simp [itemsOf, ih]

@[simp] theorem itemsOf_pass (xs : List α) : itemsOf (passEvs xs) = xs := by
  simp [passEvs, itemsOf]

theorem pass_iff {s s' : σ} {xs : List α} :
    D.Pass s xs s' ↔ ∃ t, D.Items s xs t ∧ Obs D.step t (.fin s') := by
  constructor
  · intro h
    obtain ⟨t, h1, h2⟩ := Run.append_inv h
    cases h2 with
    | fin h3 h4 => cases h4; exact ⟨t, h1, h3⟩
  · rintro ⟨t, h1, h2⟩
    exact Run.append h1 (.fin h2 .nil)

theorem passEvs_prefix {xs ys : List α} (h : passEvs xs <+: passEvs ys) : xs = ys := by
  induction xs generalizing ys with
  | nil => cases ys with
    | nil => rfl
    | cons y ys => simp [passEvs] at h
  | cons x xs ih => cases ys with
    | nil => simp [passEvs] at h
    | cons y ys =>
      simp only [passEvs, List.map_cons, List.cons_append, List.cons_prefix_cons] at h
      obtain ⟨h1, h2⟩ := h
      cases h1
      rw [ih h2]

/-- A pass is determined by its first state. -/
theorem Pass.det {s t u : σ} {xs ys : List α} (h : D.Pass s xs t) (h' : D.Pass s ys u) :
    xs = ys ∧ t = u := by
  have : xs = ys := by
    rcases Run.prefix h h' with h | h
    · exact passEvs_prefix h
    · exact (passEvs_prefix h).symm
  subst this
  exact ⟨rfl, Run.det h h'⟩

end Dataset

/-! ### Big steps of wrappers -/

/-- Results of `next` on a wrapper in terms of complete `next` calls on the inner datasets. -/
inductive WObs (src : Source ι S α) (W : Wrapper ι α β X KX) : S → X → Out (S × X) β → Prop where
  | emit {s x b x'} : W.act x = .emit b x' → WObs src W s x (.item b (s, x'))
  | halt {s x x'} : W.act x = .halt x' → WObs src W s x (.fin (s, x'))
  | raise {s x} : W.act x = .raise → WObs src W s x .err
  | tau {s x x' o} : W.act x = .tau x' → WObs src W s x' o → WObs src W s x o
  | reset {s x x' o} : W.act x = .reset x' → WObs src W (src.reset s) x' o → WObs src W s x o
  | pullItem {s x i f g a s' o} : W.act x = .pull i f g → Obs (src.pull i) s (.item a s') →
      WObs src W s' (f a) o → WObs src W s x o
  | pullFin {s x i f g s' o} : W.act x = .pull i f g → Obs (src.pull i) s (.fin s') →
      WObs src W s' g o → WObs src W s x o
  | pullErr {s x i f g} : W.act x = .pull i f g → Obs (src.pull i) s .err → WObs src W s x .err

section wrap
variable {src : Source ι S α} {W : Wrapper ι α β X KX}

theorem WObs.of_obs {p : S × X} {o : Out (S × X) β} (h : Obs (wrapStep src W) p o) :
    WObs src W p.1 p.2 o := by
  induction h with
  | @item p b p' h =>
    obtain ⟨s, x⟩ := p
    simp only [wrapStep] at h
    split at h <;> try cases h
    · exact .emit (by assumption)
    · split at h <;> cases h
  | @fin p p' h =>
    obtain ⟨s, x⟩ := p
    simp only [wrapStep] at h
    split at h <;> try cases h
    · exact .halt (by assumption)
    · split at h <;> cases h
  | @err p h =>
    obtain ⟨s, x⟩ := p
    simp only [wrapStep] at h
    split at h <;> try cases h
    · exact .raise (by assumption)
    · next ha =>
      split at h <;> try cases h
      exact .pullErr ha (.err (by assumption))
  | @skip p p' o h h' ih =>
    obtain ⟨s, x⟩ := p
    simp only [wrapStep] at h
    split at h <;> try cases h
    · exact .tau (by assumption) ih
    · exact .reset (by assumption) ih
    · next i f g ha =>
      split at h <;> try cases h
      · next hp => exact .pullItem ha (.item hp) ih
      · next hp =>
        cases ih with
        | emit h => rw [ha] at h; cases h
        | halt h => rw [ha] at h; cases h
        | raise h => rw [ha] at h; cases h
        | tau h => rw [ha] at h; cases h
        | reset h => rw [ha] at h; cases h
        | pullItem h h2 h3 => rw [ha] at h; cases h; exact .pullItem ha (.skip hp h2) h3
        | pullFin h h2 h3 => rw [ha] at h; cases h; exact .pullFin ha (.skip hp h2) h3
        | pullErr h h2 => rw [ha] at h; cases h; exact .pullErr ha (.skip hp h2)
      · next hp => exact .pullFin ha (.fin hp) ih

theorem obs_pull_item {s s' : S} {x : X} {i : ι} {f g a} {o : Out (S × X) β}
    (ha : W.act x = .pull i f g) (hs : Obs (src.pull i) s (.item a s'))
    (h : Obs (wrapStep src W) (s', f a) o) : Obs (wrapStep src W) (s, x) o := by
  generalize ho : (Out.item a s' : Out S α) = r at hs
  induction hs with
  | item h1 => cases ho; exact .skip (by simp only [wrapStep, ha, h1]) h
  | fin h1 => cases ho
  | err h1 => cases ho
  | skip h1 _ ih => exact .skip (by simp only [wrapStep, ha, h1]) (ih ho)

theorem obs_pull_fin {s s' : S} {x : X} {i : ι} {f g} {o : Out (S × X) β}
    (ha : W.act x = .pull i f g) (hs : Obs (src.pull i) s (.fin s'))
    (h : Obs (wrapStep src W) (s', g) o) : Obs (wrapStep src W) (s, x) o := by
  generalize ho : (Out.fin s' : Out S α) = r at hs
  induction hs with
  | item h1 => cases ho
  | fin h1 => cases ho; exact .skip (by simp only [wrapStep, ha, h1]) h
  | err h1 => cases ho
  | skip h1 _ ih => exact .skip (by simp only [wrapStep, ha, h1]) (ih ho)

theorem obs_pull_err {s : S} {x : X} {i : ι} {f g}
    (ha : W.act x = .pull i f g) (hs : Obs (src.pull i) s .err) :
    Obs (wrapStep src W) (s, x) .err := by
  generalize ho : (Out.err : Out S α) = r at hs
  induction hs with
  | item h1 => cases ho
  | fin h1 => cases ho
  | err h1 => exact .err (by simp only [wrapStep, ha, h1])
  | skip h1 _ ih => exact .skip (by simp only [wrapStep, ha, h1]) (ih ho)

theorem WObs.to_obs {s : S} {x : X} {o : Out (S × X) β} (h : WObs src W s x o) :
    Obs (wrapStep src W) (s, x) o := by
  induction h with
  | emit h => exact .item (by simp only [wrapStep, h])
  | halt h => exact .fin (by simp only [wrapStep, h])
  | raise h => exact .err (by simp only [wrapStep, h])
  | tau h _ ih => exact .skip (by simp only [wrapStep, h]) ih
  | reset h _ ih => exact .skip (by simp only [wrapStep, h]) ih
  | pullItem h h2 _ ih => exact obs_pull_item h h2 ih
  | pullFin h h2 _ ih => exact obs_pull_fin h h2 ih
  | pullErr h h2 => exact obs_pull_err h h2

theorem wobs_iff {s : S} {x : X} {o : Out (S × X) β} :
    Obs (wrapStep src W) (s, x) o ↔ WObs src W s x o :=
  ⟨WObs.of_obs (p := (s, x)), WObs.to_obs⟩

theorem WObs.det {s : S} {x : X} {o o' : Out (S × X) β} (h : WObs src W s x o) (h' : WObs src W s x o') :
    o = o' := Obs.det h.to_obs h'.to_obs

/-- Congruence: related inner states and equal wrapper states give related results. -/
theorem WObs.congr {E : S → S → Prop} (hE : ∀ i, Sim (src.pull i) (src.pull i) E)
    (hr : ∀ x x', W.act x = .reset x' → ∀ s t, E s t → E (src.reset s) (src.reset t))
    {s t : S} {x : X} {o : Out (S × X) β} (h : WObs src W s x o) (hst : E s t) :
    ∃ o', WObs src W t x o' ∧ Out.Rel (fun p q => p.2 = q.2 ∧ E p.1 q.1) o o' := by
  induction h generalizing t with
  | emit h => exact ⟨_, .emit h, .item ⟨rfl, hst⟩⟩
  | halt h => exact ⟨_, .halt h, .fin ⟨rfl, hst⟩⟩
  | raise h => exact ⟨_, .raise h, .err⟩
  | tau h _ ih =>
    obtain ⟨o', h1, h2⟩ := ih hst
    exact ⟨o', .tau h h1, h2⟩
  | reset h _ ih =>
    obtain ⟨o', h1, h2⟩ := ih (hr _ _ h _ _ hst)
    exact ⟨o', .reset h h1, h2⟩
  | pullItem h hs _ ih =>
    obtain ⟨o1, h1, h2⟩ := hE _ _ _ hst _ hs
    cases h2 with
    | item h2 =>
      obtain ⟨o', h3, h4⟩ := ih h2
      exact ⟨o', .pullItem h h1 h3, h4⟩
  | pullFin h hs _ ih =>
    obtain ⟨o1, h1, h2⟩ := hE _ _ _ hst _ hs
    cases h2 with
    | fin h2 =>
      obtain ⟨o', h3, h4⟩ := ih h2
      exact ⟨o', .pullFin h h1 h3, h4⟩
  | pullErr h hs =>
    obtain ⟨o1, h1, h2⟩ := hE _ _ _ hst _ hs
    cases h2 with
    | err => exact ⟨_, .pullErr h h1, .err⟩

/-- An invariant on inner states and wrapper states, kept by all big steps: `P` on inner states,
`J` while the wrapper computes, `Q` when it is suspended. -/
structure WInv (src : Source ι S α) (W : Wrapper ι α β X KX) (P : S → Prop) (J Q : X → Prop) : Prop where
  resume_to : ∀ x, Q x → J x
  emit : ∀ x b x', J x → W.act x = .emit b x' → Q x'
  halt : ∀ x x', J x → W.act x = .halt x' → Q x'
  tau : ∀ x x', J x → W.act x = .tau x' → J x'
  reset : ∀ x x', J x → W.act x = .reset x' → J x'
  resetP : ∀ x x' s, J x → W.act x = .reset x' → P s → P (src.reset s)
  pullItem : ∀ x i f g, J x → W.act x = .pull i f g →
    ∀ s a s', P s → Obs (src.pull i) s (.item a s') → J (f a) ∧ P s'
  pullFin : ∀ x i f g, J x → W.act x = .pull i f g →
    ∀ s s', P s → Obs (src.pull i) s (.fin s') → J g ∧ P s'

/-- The invariant holds in the suspended state reached. -/
def Out.All (p : σ → Prop) : Out σ α → Prop
  | .item _ s => p s
  | .fin s => p s
  | .err => True

theorem WObs.inv {P : S → Prop} {J Q : X → Prop} (H : WInv src W P J Q) {s : S} {x : X}
    {o : Out (S × X) β} (h : WObs src W s x o) (hs : P s) (hx : J x) :
    o.All (fun p => P p.1 ∧ Q p.2) := by
  induction h with
  | emit h => exact ⟨hs, H.emit _ _ _ hx h⟩
  | halt h => exact ⟨hs, H.halt _ _ hx h⟩
  | raise h => trivial
  | tau h _ ih => exact ih hs (H.tau _ _ hx h)
  | reset h _ ih => exact ih (H.resetP _ _ _ hx h hs) (H.reset _ _ hx h)
  | pullItem h h2 _ ih =>
    obtain ⟨h3, h4⟩ := H.pullItem _ _ _ _ hx h _ _ _ hs h2
    exact ih h4 h3
  | pullFin h h2 _ ih =>
    obtain ⟨h3, h4⟩ := H.pullFin _ _ _ _ hx h _ _ hs h2
    exact ih h4 h3
  | pullErr h h2 => trivial

/-- A property of the emitted samples. -/
theorem WObs.emits {P : S → Prop} {J Q : X → Prop} (H : WInv src W P J Q) {Z : β → Prop}
    (hZ : ∀ x b x', J x → W.act x = .emit b x' → Z b) {s : S} {x : X}
    {b : β} {p : S × X} (h : WObs src W s x (.item b p)) (hs : P s) (hx : J x) : Z b := by
  generalize ho : Out.item b p = o at h
  induction h with
  | emit h => cases ho; exact hZ _ _ _ hx h
  | halt h => cases ho
  | raise h => cases ho
  | tau h _ ih => exact ih hs (H.tau _ _ hx h) ho
  | reset h _ ih => exact ih (H.resetP _ _ _ hx h hs) (H.reset _ _ hx h) ho
  | pullItem h h2 _ ih =>
    obtain ⟨h3, h4⟩ := H.pullItem _ _ _ _ hx h _ _ _ hs h2
    exact ih h4 h3 ho
  | pullFin h h2 _ ih =>
    obtain ⟨h3, h4⟩ := H.pullFin _ _ _ _ hx h _ _ hs h2
    exact ih h4 h3 ho
  | pullErr h h2 => cases ho

end wrap

/-! ### Wrappers as transducers of event lists -/

/-- `W.Trans x es os x'`: with the wrapper in state `x` and the (single) inner dataset delivering the events
`es`, the wrapper delivers the events `os` and comes to state `x'`. -/
inductive Wrapper.Trans (W : Wrapper Unit α β X KX) : X → List (Ev α) → List (Ev β) → X → Prop where
  | nil {x} : W.Trans x [] [] x
  | emit {x b x' es os x''} : W.act x = .emit b x' → W.Trans x' es os x'' →
      W.Trans x es (.item b :: os) x''
  | halt {x x' es os x''} : W.act x = .halt x' → W.Trans x' es os x'' → W.Trans x es (.fin :: os) x''
  | tau {x x' es os x''} : W.act x = .tau x' → W.Trans x' es os x'' → W.Trans x es os x''
  | pullItem {x f g a es os x''} : W.act x = .pull () f g → W.Trans (f a) es os x'' →
      W.Trans x (.item a :: es) os x''
  | pullFin {x f g es os x''} : W.act x = .pull () f g → W.Trans g es os x'' →
      W.Trans x (.fin :: es) os x''

theorem Wrapper.Trans.append {W : Wrapper Unit α β X KX} {x x' x'' : X} {es es' os os'}
    (h : W.Trans x es os x') (h' : W.Trans x' es' os' x'') : W.Trans x (es ++ es') (os ++ os') x'' := by
  induction h with
  | nil => exact h'
  | emit h _ ih => exact .emit h (ih h')
  | halt h _ ih => exact .halt h (ih h')
  | tau h _ ih => exact .tau h (ih h')
  | pullItem h _ ih => exact .pullItem h (ih h')
  | pullFin h _ ih => exact .pullFin h (ih h')

/-! ### Wrappers around one dataset -/

section single
variable {D : Dataset σ α κ} {W : Wrapper Unit α β X KX}

/-- No `restore_state(None)` on the inner dataset. -/
def Wrapper.NoReset (W : Wrapper ι α β X KX) : Prop := ∀ x x', W.act x ≠ .reset x'

theorem wrap_obs {s : σ} {x : X} {o : Out (σ × X) β} :
    Obs (wrap D W).step (s, x) o ↔ WObs (Source.single D) W s x o := wobs_iff

theorem wrap_equiv_of {E : σ → σ → Prop} (hE : Sim D.step D.step E)
    (hE' : Sim D.step D.step (fun s t => E t s))
    (hr : ∀ x x', W.act x = .reset x' → ∀ s t, E s t → E (D.reset s) (D.reset t))
    {s t : σ} (h : E s t) (x : X) : (wrap D W).Equiv (s, x) (t, x) := by
  refine Dataset.Equiv.of_bisim (R := fun p q => p.2 = q.2 ∧ E p.1 q.1) ?_ ?_ ⟨rfl, h⟩
  · rintro ⟨s, x⟩ ⟨t, y⟩ ⟨hxy, hst⟩ o ho
    cases hxy
    obtain ⟨o', h1, h2⟩ := WObs.congr (fun _ => hE) hr (wrap_obs.1 ho) hst
    exact ⟨o', wrap_obs.2 h1, h2⟩
  · rintro ⟨s, x⟩ ⟨t, y⟩ ⟨hxy, hst⟩ o ho
    cases hxy
    obtain ⟨o', h1, h2⟩ := WObs.congr (src := Source.single D) (E := fun s t => E t s) (fun _ => hE')
      (fun x x' hx s t hst => hr x x' hx t s hst) (wrap_obs.1 ho) hst
    exact ⟨o', wrap_obs.2 h1, h2.mono fun _ _ h => ⟨h.1.symm, h.2⟩⟩

theorem wrap_equiv (hr : W.NoReset) {s t : σ} (h : D.Equiv s t) (x : X) :
    (wrap D W).Equiv (s, x) (t, x) :=
  wrap_equiv_of (E := D.Equiv) Dataset.Equiv.sim
    (fun s t h o ho => by
      obtain ⟨o', h1, h2⟩ := Dataset.Equiv.sim (D := D) s t h.symm o ho
      exact ⟨o', h1, h2.mono fun _ _ h => h.symm⟩)
    (fun x x' hx => absurd hx (hr x x')) h x

/-- Congruence for wrappers that reset their inner dataset. -/
theorem wrap_equiv_reset {r : Bool} (hr : D.ResetsToInit) (hrr : r = true) {s t : σ} (hs : D.Paused r s)
    (ht : D.Paused r t) (h : D.Equiv s t) (x : X) : (wrap D W).Equiv (s, x) (t, x) := by
  subst hrr
  have key : Sim D.step D.step (fun s t => D.Paused true s ∧ D.Paused true t ∧ D.Equiv s t) := by
    rintro s t ⟨hs, ht, h⟩ o ho
    obtain ⟨o', h1, h2⟩ := Dataset.Equiv.sim s t h o ho
    refine ⟨o', h1, ?_⟩
    cases h2 with
    | item h2 => exact .item ⟨.item hs ho, .item ht h1, h2⟩
    | fin h2 => exact .fin ⟨.fin hs ho, .fin ht h1, h2⟩
    | err => exact .err
  refine wrap_equiv_of (E := fun s t => D.Paused true s ∧ D.Paused true t ∧ D.Equiv s t) key ?_ ?_
    ⟨hs, ht, h⟩ x
  · rintro s t ⟨ht, hs, h⟩ o ho
    obtain ⟨o', h1, h2⟩ := key s t ⟨hs, ht, h.symm⟩ o ho
    exact ⟨o', h1, h2.mono fun _ _ h => ⟨h.2.1, h.1, h.2.2.symm⟩⟩
  · rintro x x' _ s t ⟨hs, ht, h⟩
    exact ⟨.reset rfl hs, .reset rfl ht, (hr s hs).trans (hr t ht).symm⟩

/-- If the inner dataset runs through `es` and the transducer maps this to `os`, then the wrapper runs
through `os`, and further. -/
theorem Wrapper.Trans.run_append {x x' : X} {es : List (Ev α)} {os : List (Ev β)} (h : W.Trans x es os x')
    {s s' : σ} (hs : D.Run s es s') {more : List (Ev β)} {q : σ × X} (hm : more ≠ [])
    (hq : (wrap D W).Run (s', x') more q) : (wrap D W).Run (s, x) (os ++ more) q := by
  have pre : ∀ {s t : σ} {x y : X} {es : List (Ev β)}, es ≠ [] →
      (∀ o, WObs (Source.single D) W t y o → WObs (Source.single D) W s x o) →
      (wrap D W).Run (t, y) es q → (wrap D W).Run (s, x) es q := by
    intro s t x y es hes ho hr
    cases hr with
    | nil => exact absurd rfl hes
    | item h1 h2 => exact .item (wrap_obs.2 (ho _ (wrap_obs.1 h1))) h2
    | fin h1 h2 => exact .fin (wrap_obs.2 (ho _ (wrap_obs.1 h1))) h2
  induction h generalizing s with
  | nil => cases hs; exact hq
  | emit h _ ih => exact .item (wrap_obs.2 (.emit h)) (ih hs hq)
  | halt h _ ih => exact .fin (wrap_obs.2 (.halt h)) (ih hs hq)
  | tau h _ ih => exact pre (by simp [hm]) (fun o ho => .tau h ho) (ih hs hq)
  | pullItem h _ ih =>
    cases hs with
    | item h1 h2 => exact pre (by simp [hm]) (fun o ho => .pullItem h h1 ho) (ih h2 hq)
  | pullFin h _ ih =>
    cases hs with
    | fin h1 h2 => exact pre (by simp [hm]) (fun o ho => .pullFin h h1 ho) (ih h2 hq)

/-- A transduction that ends with an emission. -/
theorem Wrapper.Trans.run_emit {x x' x'' : X} {es : List (Ev α)} {os : List (Ev β)} {b : β}
    (h : W.Trans x es os x') (h' : W.act x' = .emit b x'') {s s' : σ} (hs : D.Run s es s') :
    (wrap D W).Run (s, x) (os ++ [.item b]) (s', x'') :=
  h.run_append hs (by simp) (.item (wrap_obs.2 (.emit h')) .nil)

/-- A transduction without observable events: what is observed afterwards is observed from its beginning. -/
theorem Wrapper.Trans.obs_silent {x x' : X} {es : List (Ev α)} (h : W.Trans x es [] x') {s s' : σ} (hs : D.Run s es s') {o}
    (ho : WObs (Source.single D) W s' x' o) : WObs (Source.single D) W s x o := by
  generalize hos : ([] : List (Ev β)) = os at h
  induction h generalizing s with
  | nil => cases hs; exact ho
  | emit => cases hos
  | halt => cases hos
  | tau h _ ih => exact .tau h (ih hs ho hos)
  | pullItem h _ ih =>
    cases hs with
    | item h1 h2 => exact .pullItem h h1 (ih h2 ho hos)
  | pullFin h _ ih =>
    cases hs with
    | fin h1 h2 => exact .pullFin h h1 (ih h2 ho hos)

/-- A transduction that ends with the end of the pass. -/
theorem Wrapper.Trans.run_halt {x x' x'' : X} {es : List (Ev α)} {os : List (Ev β)}
    (h : W.Trans x es os x') (h' : W.act x' = .halt x'') {s s' : σ} (hs : D.Run s es s') :
    (wrap D W).Run (s, x) (os ++ [.fin]) (s', x'') :=
  h.run_append hs (by simp) (.fin (wrap_obs.2 (.halt h')) .nil)

/-- The first `n` observable events of a transduction are observed. -/
theorem Wrapper.Trans.run_some {x x' : X} {es : List (Ev α)} {os : List (Ev β)} (h : W.Trans x es os x')
    {s s' : σ} (hs : D.Run s es s') : ∃ q, (wrap D W).Run (s, x) os q := by
  have pre : ∀ {s t : σ} {x y : X} {es : List (Ev β)},
      (∀ o, WObs (Source.single D) W t y o → WObs (Source.single D) W s x o) →
      (∃ q, (wrap D W).Run (t, y) es q) → ∃ q, (wrap D W).Run (s, x) es q := by
    rintro s t x y es ho ⟨q, hr⟩
    cases hr with
    | nil => exact ⟨_, .nil⟩
    | item h1 h2 => exact ⟨_, .item (wrap_obs.2 (ho _ (wrap_obs.1 h1))) h2⟩
    | fin h1 h2 => exact ⟨_, .fin (wrap_obs.2 (ho _ (wrap_obs.1 h1))) h2⟩
  induction h generalizing s with
  | nil => exact ⟨_, .nil⟩
  | emit h _ ih => obtain ⟨q, hq⟩ := ih hs; exact ⟨q, .item (wrap_obs.2 (.emit h)) hq⟩
  | halt h _ ih => obtain ⟨q, hq⟩ := ih hs; exact ⟨q, .fin (wrap_obs.2 (.halt h)) hq⟩
  | tau h _ ih => exact pre (fun o ho => .tau h ho) (ih hs)
  | pullItem h _ ih =>
    cases hs with
    | item h1 h2 => exact pre (fun o ho => .pullItem h h1 ho) (ih h2)
  | pullFin h _ ih =>
    cases hs with
    | fin h1 h2 => exact pre (fun o ho => .pullFin h h1 ho) (ih h2)

/-- Conversely every run of the wrapper comes from a run of the inner dataset. -/
theorem run_inv (hr : W.NoReset) {p q : σ × X} {os : List (Ev β)} (h : (wrap D W).Run p os q) :
    ∃ es, D.Run p.1 es q.1 ∧ W.Trans p.2 es os q.2 := by
  have aux : ∀ {s : σ} {x : X} {o : Out (σ × X) β}, WObs (Source.single D) W s x o →
      match o with
      | .item b q => ∃ es, D.Run s es q.1 ∧ W.Trans x es [.item b] q.2
      | .fin q => ∃ es, D.Run s es q.1 ∧ W.Trans x es [.fin] q.2
      | .err => True := by
    intro s x o h
    induction h with
    | emit h => exact ⟨[], .nil, .emit h .nil⟩
    | halt h => exact ⟨[], .nil, .halt h .nil⟩
    | raise h => trivial
    | @tau s x x' o h _ ih =>
      cases o with
      | item b q => obtain ⟨es, h1, h2⟩ := ih; exact ⟨es, h1, .tau h h2⟩
      | fin q => obtain ⟨es, h1, h2⟩ := ih; exact ⟨es, h1, .tau h h2⟩
      | err => trivial
    | reset h => exact absurd h (hr _ _)
    | @pullItem s x i f g a s' o h hs _ ih =>
      cases o with
      | item b q => obtain ⟨es, h1, h2⟩ := ih; exact ⟨_, .item hs h1, .pullItem h h2⟩
      | fin q => obtain ⟨es, h1, h2⟩ := ih; exact ⟨_, .item hs h1, .pullItem h h2⟩
      | err => trivial
    | @pullFin s x i f g s' o h hs _ ih =>
      cases o with
      | item b q => obtain ⟨es, h1, h2⟩ := ih; exact ⟨_, .fin hs h1, .pullFin h h2⟩
      | fin q => obtain ⟨es, h1, h2⟩ := ih; exact ⟨_, .fin hs h1, .pullFin h h2⟩
      | err => trivial
    | pullErr => trivial
  induction h with
  | nil => exact ⟨[], .nil, .nil⟩
  | item h _ ih =>
    obtain ⟨es, h1, h2⟩ := aux (wrap_obs.1 h)
    obtain ⟨es', h3, h4⟩ := ih
    exact ⟨_, h1.append h3, h2.append h4⟩
  | fin h _ ih =>
    obtain ⟨es, h1, h2⟩ := aux (wrap_obs.1 h)
    obtain ⟨es', h3, h4⟩ := ih
    exact ⟨_, h1.append h3, h2.append h4⟩

theorem wrap_equiv_tau {s : σ} {x x' : X} (h : W.act x = .tau x') :
    (wrap D W).Equiv (s, x) (s, x') :=
  Dataset.Equiv.of_skip (by simp only [wrap, wrapStep, h])

theorem wrap_equiv_resetStep {s : σ} {x x' : X} (h : W.act x = .reset x') :
    (wrap D W).Equiv (s, x) (D.reset s, x') :=
  Dataset.Equiv.of_skip (by simp only [wrap, wrapStep, h, Source.single])

theorem wrap_equiv_pullItem {s s' : σ} {x : X} {f g a} (h : W.act x = .pull () f g)
    (hs : Obs D.step s (.item a s')) : (wrap D W).Equiv (s, x) (s', f a) := by
  refine Dataset.Equiv.of_obs fun o => ⟨fun ho => ?_, fun ho => obs_pull_item h hs ho⟩
  have := wrap_obs.1 ho
  cases this with
  | emit h2 => rw [h] at h2; cases h2
  | halt h2 => rw [h] at h2; cases h2
  | raise h2 => rw [h] at h2; cases h2
  | tau h2 => rw [h] at h2; cases h2
  | reset h2 => rw [h] at h2; cases h2
  | pullErr h2 h3 => rw [h] at h2; cases h2; cases hs.det h3
  | pullFin h2 h3 => rw [h] at h2; cases h2; cases hs.det h3
  | pullItem h2 h3 h4 => rw [h] at h2; cases h2; cases hs.det h3; exact wrap_obs.2 h4

theorem wrap_equiv_pullFin {s s' : σ} {x : X} {f g} (h : W.act x = .pull () f g)
    (hs : Obs D.step s (.fin s')) : (wrap D W).Equiv (s, x) (s', g) := by
  refine Dataset.Equiv.of_obs fun o => ⟨fun ho => ?_, fun ho => obs_pull_fin h hs ho⟩
  have := wrap_obs.1 ho
  cases this with
  | emit h2 => rw [h] at h2; cases h2
  | halt h2 => rw [h] at h2; cases h2
  | raise h2 => rw [h] at h2; cases h2
  | tau h2 => rw [h] at h2; cases h2
  | reset h2 => rw [h] at h2; cases h2
  | pullErr h2 h3 => rw [h] at h2; cases h2; cases hs.det h3
  | pullItem h2 h3 => rw [h] at h2; cases h2; cases hs.det h3
  | pullFin h2 h3 h4 => rw [h] at h2; cases h2; cases hs.det h3; exact wrap_obs.2 h4

/-- Paused states of a wrapper. -/
theorem wrap_paused {r : Bool} {J Q : X → Prop} (H : WInv (Source.single D) W (D.Paused r) J Q)
    (hi : Q W.init) (hres : ∀ x, Q x → Q (W.resume (W.save x))) (hrst : r = true → ∀ x, Q x → Q (W.reset x))
    {p : σ × X} (h : (wrap D W).Paused r p) : D.Paused r p.1 ∧ Q p.2 := by
  induction h with
  | init => exact ⟨.init, hi⟩
  | item _ h ih => exact WObs.inv H (wrap_obs.1 h) ih.1 (H.resume_to _ ih.2)
  | fin _ h ih => exact WObs.inv H (wrap_obs.1 h) ih.1 (H.resume_to _ ih.2)
  | resume _ ih => exact ⟨.resume ih.1, hres _ ih.2⟩
  | reset hr _ ih => exact ⟨.reset hr ih.1, hrst hr _ ih.2⟩

/-- The simple way to an invariant if the wrapper never resets its source. -/
theorem WInv.mk' {r : Bool} {J Q : X → Prop} (hr : W.NoReset)
    (resume_to : ∀ x, Q x → J x)
    (emit : ∀ x b x', J x → W.act x = .emit b x' → Q x')
    (halt : ∀ x x', J x → W.act x = .halt x' → Q x')
    (tau : ∀ x x', J x → W.act x = .tau x' → J x')
    (pullItem : ∀ x i f g, J x → W.act x = .pull i f g → ∀ a, D.Yields r a → J (f a))
    (pullFin : ∀ x i f g, J x → W.act x = .pull i f g → ¬ D.NeverEnds r → J g) :
    WInv (Source.single D) W (D.Paused r) J Q :=
  { resume_to := resume_to, emit := emit, halt := halt, tau := tau
    reset := fun x x' _ h => absurd h (hr x x')
    resetP := fun x x' _ _ h => absurd h (hr x x')
    pullItem := fun x i f g hx ha s a s' hs ho =>
      ⟨pullItem x i f g hx ha a ⟨s, s', hs, ho⟩, .item hs ho⟩
    pullFin := fun x i f g hx ha s s' hs ho =>
      ⟨pullFin x i f g hx ha (fun hn => hn s s' hs ho), .fin hs ho⟩ }

/-- The generic argument for exact resumption of wrappers. -/
theorem wrap_resumes {r : Bool} {J Q : X → Prop} (H : WInv (Source.single D) W (D.Paused r) J Q)
    (hi : Q W.init) (hres : ∀ x, Q x → Q (W.resume (W.save x))) (hrst : r = true → ∀ x, Q x → Q (W.reset x))
    (hr : W.NoReset) (hD : D.ResumesExactly r)
    (hx : ∀ s x, D.Paused r s → Q x → (wrap D W).Equiv (s, x) (s, W.resume (W.save x))) :
    (wrap D W).ResumesExactly r := by
  rintro ⟨s, x⟩ h
  obtain ⟨h1, h2⟩ := wrap_paused H hi hres hrst h
  exact (hx s x h1 h2).trans (wrap_equiv hr (hD s h1) _)

end single

end Verif.Stream
