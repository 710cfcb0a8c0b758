import Verif.Stream.Lemmas

/-! # Lemmas about `MissesEnd` -/

namespace Verif.Stream

variable {σ α κ : Type} {D : Dataset σ α κ}

theorem Dataset.MissesEnd.congr {p p' q q' : σ} (h1 : D.Equiv p p') (h2 : D.Equiv q q') (h : D.MissesEnd p' q') :
    D.MissesEnd p q := by
  intro evs
  rw [h2 evs, h evs]
  constructor
  · rintro ⟨e, h3, h4⟩; exact ⟨e, (h1 _).2 h3, h4⟩
  · rintro ⟨e, h3, h4⟩; exact ⟨e, (h1 _).1 h3, h4⟩

theorem Dataset.MissesEnd.item {p p' q q' : σ} {a : α} (h1 : Obs D.step p (.item a p')) (h2 : Obs D.step q (.item a q'))
    (h : D.MissesEnd p' q') : D.MissesEnd p q := by
  intro evs
  constructor
  · intro ht
    cases ht with
    | nil => exact ⟨[], .nil, rfl⟩
    | item h3 h4 =>
      cases h3.det h2
      obtain ⟨e, h5, h6⟩ := (h _).1 h4
      exact ⟨.item a :: e, .item h1 h5, by simp [eraseFin, h6]⟩
    | fin h3 => cases h3.det h2
    | err h3 => cases h3.det h2
  · rintro ⟨e, h3, rfl⟩
    cases h3 with
    | nil => exact .nil
    | item h3 h4 =>
      cases h3.det h1
      exact .item h2 ((h _).2 ⟨_, h4, rfl⟩)
    | fin h3 => cases h3.det h1
    | err h3 => cases h3.det h1

theorem Dataset.MissesEnd.err {p q : σ} (h1 : Obs D.step p .err) (h2 : Obs D.step q .err) : D.MissesEnd p q := by
  intro evs
  constructor
  · intro ht
    cases ht with
    | nil => exact ⟨[], .nil, rfl⟩
    | item h3 => cases h3.det h2
    | fin h3 => cases h3.det h2
    | err h3 => exact ⟨[.err], .err h1, rfl⟩
  · rintro ⟨e, h3, rfl⟩
    cases h3 with
    | nil => exact .nil
    | item h3 h4 => cases h3.det h1
    | fin h3 => cases h3.det h1
    | err h3 => exact .err h2

theorem Dataset.MissesEnd.fin {p p' q : σ} (h1 : Obs D.step p (.fin p')) (h : D.Equiv p' q) : D.MissesEnd p q := by
  intro evs
  constructor
  · intro ht
    exact ⟨.fin :: evs, .fin h1 ((h _).2 ht), rfl⟩
  · rintro ⟨e, h3, rfl⟩
    cases h3 with
    | nil => exact .nil
    | item h3 h4 => cases h3.det h1
    | fin h3 h4 => cases h3.det h1; exact (h _).1 h4
    | err h3 => cases h3.det h1

/-- All successor states satisfy `J`. -/
def Act.All {ι α β X : Type} (J : X → Prop) : Act ι α β X → Prop
  | .emit _ x => J x
  | .halt x => J x
  | .tau x => J x
  | .reset x => J x
  | .pull _ f g => (∀ a, J (f a)) ∧ J g
  | .raise => True

/-- What must hold of an action for an invariant: `J` while computing, `Q` when suspended, `Y` of pulled samples, `NE` if
an inner pass has ended. -/
def Act.Inv {ι α β X : Type} (Y : α → Prop) (NE : Prop) (J Q : X → Prop) : Act ι α β X → Prop
  | .emit _ x => Q x
  | .halt x => Q x
  | .tau x => J x
  | .reset _ => False
  | .pull _ f g => (∀ a, Y a → J (f a)) ∧ (NE → J g)
  | .raise => True

/-- The simplest way to an invariant. -/
theorem WInv.ofInv {β X KX : Type} {W : Wrapper Unit α β X KX} {J Q : X → Prop} {r : Bool} (hr : W.NoReset)
    (hQ : ∀ x, Q x → J x) (h : ∀ x, J x → (W.act x).Inv (D.Yields r) (¬ D.NeverEnds r) J Q) :
    WInv (Source.single D) W (D.Paused r) J Q := by
  refine WInv.mk' hr hQ ?_ ?_ ?_ ?_ ?_
  · intro x b x' hx ha; have := h x hx; rw [ha] at this; exact this
  · intro x x' hx ha; have := h x hx; rw [ha] at this; exact this
  · intro x x' hx ha; have := h x hx; rw [ha] at this; exact this
  · intro x i f g hx ha a hy; have := h x hx; rw [ha] at this; exact this.1 a hy
  · intro x i f g hx ha hn; have := h x hx; rw [ha] at this; exact this.2 hn

/-- An invariant of the wrapper alone. -/
theorem WInv.ofAct {β X KX : Type} {W : Wrapper Unit α β X KX} {J : X → Prop} {r : Bool} (hr : W.NoReset)
    (h : ∀ x, J x → (W.act x).All J) : WInv (Source.single D) W (D.Paused r) J J := by
  refine WInv.mk' hr (fun _ h => h) ?_ ?_ ?_ ?_ ?_
  · intro x b x' hx ha; have := h x hx; rw [ha] at this; exact this
  · intro x x' hx ha; have := h x hx; rw [ha] at this; exact this
  · intro x x' hx ha; have := h x hx; rw [ha] at this; exact this
  · intro x i f g hx ha a _; have := h x hx; rw [ha] at this; exact this.1 a
  · intro x i f g hx ha _; have := h x hx; rw [ha] at this; exact this.2

end Verif.Stream
