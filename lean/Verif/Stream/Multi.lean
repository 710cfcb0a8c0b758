import Verif.Stream.Lemmas

/-! # Wrappers around several datasets -/

namespace Verif.Stream

variable {σ τ α β κ X KX C : Type}

theorem upd_same (S : Nat → σ) (i : Nat) (s : σ) : upd S i s i = s := by simp [upd]

theorem upd_other (S : Nat → σ) {i j : Nat} (h : j ≠ i) (s : σ) : upd S i s j = S j := by simp [upd, h]

theorem upd_upd (S : Nat → σ) (i : Nat) (s t : σ) : upd (upd S i s) i t = upd S i t := by
  funext j; simp only [upd]; split <;> rfl

theorem upd_self (S : Nat → σ) (i : Nat) : upd S i (S i) = S := by
  funext j; simp only [upd]; split
  · next h => rw [h]
  · rfl

/-- Apply a function to the successor state. -/
def Out.mapS (f : σ → τ) : Out σ α → Out τ α
  | .item a s => .item a (f s)
  | .fin s => .fin (f s)
  | .err => .err

section
variable {D : Nat → Dataset σ α κ}

theorem multi_obs_of {i : Nat} {S : Nat → σ} {o : Out σ α} (h : Obs (D i).step (S i) o) :
    Obs ((Source.multi D).pull i) S (o.mapS (upd S i)) := by
  generalize hs : S i = s at h
  induction h generalizing S with
  | item h => exact .item (by simp only [Source.multi, hs, h, Step.mapS])
  | fin h => exact .fin (by simp only [Source.multi, hs, h, Step.mapS])
  | err h => exact .err (by simp only [Source.multi, hs, h, Step.mapS])
  | @skip s s' o h _ ih =>
    refine .skip (s' := upd S i s') (by simp only [Source.multi, hs, h, Step.mapS]) ?_
    have := ih (S := upd S i s') (upd_same _ _ _)
    have hu : upd (upd S i s') i = upd S i := by funext t; exact upd_upd _ _ _ _
    rwa [hu] at this

theorem multi_obs_inv {i : Nat} {S : Nat → σ} {o : Out (Nat → σ) α} (h : Obs ((Source.multi D).pull i) S o) :
    ∃ o', Obs (D i).step (S i) o' ∧ o = o'.mapS (upd S i) := by
  induction h with
  | @item S a S' h =>
    simp only [Source.multi] at h
    cases hs : (D i).step (S i) <;> rw [hs] at h <;> cases h
    exact ⟨_, .item hs, rfl⟩
  | @fin S S' h =>
    simp only [Source.multi] at h
    cases hs : (D i).step (S i) <;> rw [hs] at h <;> cases h
    exact ⟨_, .fin hs, rfl⟩
  | @err S h =>
    simp only [Source.multi] at h
    cases hs : (D i).step (S i) <;> rw [hs] at h <;> cases h
    exact ⟨_, .err hs, rfl⟩
  | @skip S S' o h _ ih =>
    simp only [Source.multi] at h
    cases hs : (D i).step (S i) <;> rw [hs] at h <;> cases h
    obtain ⟨o', h1, h2⟩ := ih
    rw [upd_same] at h1
    refine ⟨o', .skip hs h1, ?_⟩
    rw [h2]
    congr 1
    funext t; exact upd_upd _ _ _ _

theorem multi_item {i : Nat} {S S' : Nat → σ} {a : α} (h : Obs ((Source.multi D).pull i) S (.item a S')) :
    ∃ s', Obs (D i).step (S i) (.item a s') ∧ S' = upd S i s' := by
  obtain ⟨o', h1, h2⟩ := multi_obs_inv h
  cases o' <;> cases h2
  exact ⟨_, h1, rfl⟩

theorem multi_fin {i : Nat} {S S' : Nat → σ} (h : Obs ((Source.multi D).pull i) S (.fin S')) :
    ∃ s', Obs (D i).step (S i) (.fin s') ∧ S' = upd S i s' := by
  obtain ⟨o', h1, h2⟩ := multi_obs_inv h
  cases o' <;> cases h2
  exact ⟨_, h1, rfl⟩

/-- All parts indistinguishable. -/
theorem multi_sim (i : Nat) : Sim ((Source.multi D).pull i) ((Source.multi D).pull i)
    (fun S T => ∀ j, (D j).Equiv (S j) (T j)) := by
  intro S T h o ho
  obtain ⟨o1, h1, rfl⟩ := multi_obs_inv ho
  obtain ⟨o2, h2, h3⟩ := Dataset.Equiv.sim (D := D i) _ _ (h i) _ h1
  refine ⟨_, multi_obs_of h2, ?_⟩
  have key : ∀ {s t}, (D i).Equiv s t → ∀ j, (D j).Equiv (upd S i s j) (upd T i t j) := by
    intro s t hst j
    by_cases hj : j = i
    · subst hj; rw [upd_same, upd_same]; exact hst
    · rw [upd_other _ hj, upd_other _ hj]; exact h j
  cases h3 with
  | item h3 => exact .item (key h3)
  | fin h3 => exact .fin (key h3)
  | err => exact .err

variable {W : Wrapper Nat α β X KX}

theorem wrapMulti_obs {S : Nat → σ} {x : X} {o : Out ((Nat → σ) × X) β} :
    Obs (wrapMulti D W).step (S, x) o ↔ WObs (Source.multi D) W S x o := wobs_iff

theorem wrapMulti_equiv (hr : W.NoReset) {S T : Nat → σ} (h : ∀ j, (D j).Equiv (S j) (T j)) (x : X) :
    (wrapMulti D W).Equiv (S, x) (T, x) := by
  have key : ∀ {S T : Nat → σ} {x : X} {o}, (∀ j, (D j).Equiv (S j) (T j)) →
      Obs (wrapMulti D W).step (S, x) o → ∃ o', Obs (wrapMulti D W).step (T, x) o' ∧
        Out.Rel (fun p q => p.2 = q.2 ∧ ∀ j, (D j).Equiv (p.1 j) (q.1 j)) o o' := by
    intro S T x o hST ho
    obtain ⟨o', h1, h2⟩ := WObs.congr (src := Source.multi D) (E := fun S T => ∀ j, (D j).Equiv (S j) (T j))
      multi_sim (fun x x' hx => absurd hx (hr x x')) (wrapMulti_obs.1 ho) hST
    exact ⟨o', wrapMulti_obs.2 h1, h2⟩
  refine Dataset.Equiv.of_bisim (D := wrapMulti D W)
    (R := fun p q => p.2 = q.2 ∧ ∀ j, (D j).Equiv (p.1 j) (q.1 j)) ?_ ?_ ⟨rfl, h⟩
  · rintro ⟨S, x⟩ ⟨T, y⟩ ⟨hxy, hst⟩ o ho
    cases hxy
    exact key hst ho
  · rintro ⟨S, x⟩ ⟨T, y⟩ ⟨hxy, hst⟩ o ho
    cases hxy
    obtain ⟨o', h1, h2⟩ := key (fun j => (hst j).symm) ho
    exact ⟨o', h1, h2.mono fun _ _ h => ⟨h.1.symm, fun j => (h.2 j).symm⟩⟩

theorem wrapMulti_equiv_tau {S : Nat → σ} {x x' : X} (h : W.act x = .tau x') :
    (wrapMulti D W).Equiv (S, x) (S, x') :=
  Dataset.Equiv.of_skip (by simp only [wrapMulti, wrapStep, h])

/-- The simple way to an invariant. -/
theorem WInv.mkMulti {r : Bool} {J Q : X → Prop} (hr : W.NoReset)
    (resume_to : ∀ x, Q x → J x)
    (emit : ∀ x b x', J x → W.act x = .emit b x' → Q x')
    (halt : ∀ x x', J x → W.act x = .halt x' → Q x')
    (tau : ∀ x x', J x → W.act x = .tau x' → J x')
    (pullItem : ∀ x i f g, J x → W.act x = .pull i f g → ∀ a, (D i).Yields r a → J (f a))
    (pullFin : ∀ x i f g, J x → W.act x = .pull i f g → J g) :
    WInv (Source.multi D) W (fun S => ∀ j, (D j).Paused r (S j)) J Q :=
  { resume_to := resume_to, emit := emit, halt := halt, tau := tau
    reset := fun x x' _ h => absurd h (hr x x')
    resetP := fun x x' _ _ h => absurd h (hr x x')
    pullItem := fun x i f g hx ha S a S' hs ho => by
      obtain ⟨s', h1, rfl⟩ := multi_item ho
      refine ⟨pullItem x i f g hx ha a ⟨_, s', hs i, h1⟩, fun j => ?_⟩
      by_cases hj : j = i
      · subst hj; rw [upd_same]; exact .item (hs j) h1
      · rw [upd_other _ hj]; exact hs j
    pullFin := fun x i f g hx ha S S' hs ho => by
      obtain ⟨s', h1, rfl⟩ := multi_fin ho
      refine ⟨pullFin x i f g hx ha, fun j => ?_⟩
      by_cases hj : j = i
      · subst hj; rw [upd_same]; exact .fin (hs j) h1
      · rw [upd_other _ hj]; exact hs j }

theorem wrapMulti_paused {r : Bool} {J Q : X → Prop}
    (H : WInv (Source.multi D) W (fun S => ∀ j, (D j).Paused r (S j)) J Q)
    (hi : Q W.init) (hres : ∀ x, Q x → Q (W.resume (W.save x))) (hrst : r = true → ∀ x, Q x → Q (W.reset x))
    {p : (Nat → σ) × X} (h : (wrapMulti D W).Paused r p) : (∀ j, (D j).Paused r (p.1 j)) ∧ Q p.2 := by
  induction h with
  | init => exact ⟨fun j => .init, hi⟩
  | item _ h ih => exact WObs.inv H (wrapMulti_obs.1 h) ih.1 (H.resume_to _ ih.2)
  | fin _ h ih => exact WObs.inv H (wrapMulti_obs.1 h) ih.1 (H.resume_to _ ih.2)
  | resume _ ih => exact ⟨fun j => .resume (ih.1 j), hres _ ih.2⟩
  | reset hr _ ih => exact ⟨fun j => .reset hr (ih.1 j), hrst hr _ ih.2⟩

/-! ### Transducers with several inputs -/

/-- `W.MTrans x es os x'`: with inner datasets delivering the events `es` (each with the number of the dataset), the
wrapper delivers `os`. -/
inductive Wrapper.MTrans (W : Wrapper Nat α β X KX) : X → List (Nat × Ev α) → List (Ev β) → X → Prop where
  | nil {x} : W.MTrans x [] [] x
  | emit {x b x' es os x''} : W.act x = .emit b x' → W.MTrans x' es os x'' →
      W.MTrans x es (.item b :: os) x''
  | halt {x x' es os x''} : W.act x = .halt x' → W.MTrans x' es os x'' → W.MTrans x es (.fin :: os) x''
  | tau {x x' es os x''} : W.act x = .tau x' → W.MTrans x' es os x'' → W.MTrans x es os x''
  | pullItem {x i f g a es os x''} : W.act x = .pull i f g → W.MTrans (f a) es os x'' →
      W.MTrans x ((i, .item a) :: es) os x''
  | pullFin {x i f g es os x''} : W.act x = .pull i f g → W.MTrans g es os x'' →
      W.MTrans x ((i, .fin) :: es) os x''

theorem Wrapper.MTrans.append {x x' x'' : X} {es es' os os'}
    (h : W.MTrans x es os x') (h' : W.MTrans x' es' os' x'') : W.MTrans x (es ++ es') (os ++ os') x'' := by
  induction h with
  | nil => exact h'
  | emit h _ ih => exact .emit h (ih h')
  | halt h _ ih => exact .halt h (ih h')
  | tau h _ ih => exact .tau h (ih h')
  | pullItem h _ ih => exact .pullItem h (ih h')
  | pullFin h _ ih => exact .pullFin h (ih h')

/-- The events of dataset `i`. -/
def evsOf (i : Nat) (es : List (Nat × Ev α)) : List (Ev α) := (es.filter fun e => e.1 = i).map (·.2)

theorem evsOf_append (i : Nat) (es fs : List (Nat × Ev α)) : evsOf i (es ++ fs) = evsOf i es ++ evsOf i fs := by
  simp [evsOf]

theorem evsOf_cons_same (i : Nat) (e : Ev α) (es : List (Nat × Ev α)) :
    evsOf i ((i, e) :: es) = e :: evsOf i es := by
  simp [evsOf]

theorem evsOf_cons_other {i j : Nat} (h : j ≠ i) (e : Ev α) (es : List (Nat × Ev α)) :
    evsOf i ((j, e) :: es) = evsOf i es := by
  simp [evsOf, h]

theorem run_nil_inv {D : Dataset σ α κ} {s t : σ} (h : D.Run s [] t) : s = t := by cases h; rfl

/-- A joint run of the inner datasets. -/
def MRun (D : Nat → Dataset σ α κ) (S : Nat → σ) (es : List (Nat × Ev α)) (S' : Nat → σ) : Prop :=
  ∀ i, (D i).Run (S i) (evsOf i es) (S' i)

theorem MRun.nil {S : Nat → σ} : MRun D S [] S := fun _ => .nil

theorem MRun.append {S S' S'' : Nat → σ} {es fs : List (Nat × Ev α)} (h : MRun D S es S') (h' : MRun D S' fs S'') :
    MRun D S (es ++ fs) S'' := by
  intro i; rw [evsOf_append]; exact (h i).append (h' i)

theorem MRun.item_inv {S S'' : Nat → σ} {i : Nat} {a : α} {es : List (Nat × Ev α)}
    (h : MRun D S ((i, .item a) :: es) S'') :
    ∃ S', Obs ((Source.multi D).pull i) S (.item a S') ∧ MRun D S' es S'' := by
  have hi := h i
  rw [evsOf_cons_same] at hi
  cases hi with
  | @item _ _ s' _ _ h1 h2 =>
    refine ⟨upd S i s', multi_obs_of h1, fun j => ?_⟩
    by_cases hj : j = i
    · subst hj; rw [upd_same]; exact h2
    · rw [upd_other _ hj]; have := h j; rwa [evsOf_cons_other (Ne.symm hj)] at this

theorem MRun.fin_inv {S S'' : Nat → σ} {i : Nat} {es : List (Nat × Ev α)}
    (h : MRun D S ((i, .fin) :: es) S'') :
    ∃ S', Obs ((Source.multi D).pull i) S (.fin S') ∧ MRun D S' es S'' := by
  have hi := h i
  rw [evsOf_cons_same] at hi
  cases hi with
  | @fin _ s' _ _ h1 h2 =>
    refine ⟨upd S i s', multi_obs_of h1, fun j => ?_⟩
    by_cases hj : j = i
    · subst hj; rw [upd_same]; exact h2
    · rw [upd_other _ hj]; have := h j; rwa [evsOf_cons_other (Ne.symm hj)] at this

theorem MRun.item {S S' S'' : Nat → σ} {i : Nat} {a : α} {es : List (Nat × Ev α)}
    (h : Obs ((Source.multi D).pull i) S (.item a S')) (h' : MRun D S' es S'') :
    MRun D S ((i, .item a) :: es) S'' := by
  obtain ⟨s', h1, rfl⟩ := multi_item h
  intro j
  by_cases hj : j = i
  · subst hj; rw [evsOf_cons_same]; have := h' j; rw [upd_same] at this; exact .item h1 this
  · rw [evsOf_cons_other (Ne.symm hj)]; have := h' j; rwa [upd_other _ hj] at this

theorem MRun.fin {S S' S'' : Nat → σ} {i : Nat} {es : List (Nat × Ev α)}
    (h : Obs ((Source.multi D).pull i) S (.fin S')) (h' : MRun D S' es S'') :
    MRun D S ((i, .fin) :: es) S'' := by
  obtain ⟨s', h1, rfl⟩ := multi_fin h
  intro j
  by_cases hj : j = i
  · subst hj; rw [evsOf_cons_same]; have := h' j; rw [upd_same] at this; exact .fin h1 this
  · rw [evsOf_cons_other (Ne.symm hj)]; have := h' j; rwa [upd_other _ hj] at this

theorem Wrapper.MTrans.run_append {x x' : X} {es : List (Nat × Ev α)} {os : List (Ev β)} (h : W.MTrans x es os x')
    {S S' : Nat → σ} (hs : MRun D S es S') {more : List (Ev β)} {q : (Nat → σ) × X} (hm : more ≠ [])
    (hq : (wrapMulti D W).Run (S', x') more q) : (wrapMulti D W).Run (S, x) (os ++ more) q := by
  have pre : ∀ {s t : Nat → σ} {x y : X} {es : List (Ev β)}, es ≠ [] →
      (∀ o, WObs (Source.multi D) W t y o → WObs (Source.multi D) W s x o) →
      (wrapMulti D W).Run (t, y) es q → (wrapMulti D W).Run (s, x) es q := by
    intro s t x y es hes ho hr
    cases hr with
    | nil => exact absurd rfl hes
    | item h1 h2 => exact .item (wrapMulti_obs.2 (ho _ (wrapMulti_obs.1 h1))) h2
    | fin h1 h2 => exact .fin (wrapMulti_obs.2 (ho _ (wrapMulti_obs.1 h1))) h2
  induction h generalizing S with
  | nil =>
    have : S = S' := by
      funext i
      have := hs i
      simp only [evsOf, List.filter_nil, List.map_nil] at this
      exact run_nil_inv this
    subst this; exact hq
  | emit h _ ih => exact .item (wrapMulti_obs.2 (.emit h)) (ih hs hq)
  | halt h _ ih => exact .fin (wrapMulti_obs.2 (.halt h)) (ih hs hq)
  | tau h _ ih => exact pre (by simp [hm]) (fun o ho => .tau h ho) (ih hs hq)
  | pullItem h _ ih =>
    obtain ⟨T, h1, h2⟩ := hs.item_inv
    exact pre (by simp [hm]) (fun o ho => .pullItem h h1 ho) (ih h2 hq)
  | pullFin h _ ih =>
    obtain ⟨T, h1, h2⟩ := hs.fin_inv
    exact pre (by simp [hm]) (fun o ho => .pullFin h h1 ho) (ih h2 hq)

theorem multi_run_inv (hr : W.NoReset) {p q : (Nat → σ) × X} {os : List (Ev β)} (h : (wrapMulti D W).Run p os q) :
    ∃ es, MRun D p.1 es q.1 ∧ W.MTrans p.2 es os q.2 := by
  have aux : ∀ {s : Nat → σ} {x : X} {o : Out ((Nat → σ) × X) β}, WObs (Source.multi D) W s x o →
      match o with
      | .item b q => ∃ es, MRun D s es q.1 ∧ W.MTrans x es [.item b] q.2
      | .fin q => ∃ es, MRun D s es q.1 ∧ W.MTrans x es [.fin] q.2
      | .err => True := by
    intro s x o h
    induction h with
    | emit h => exact ⟨[], .nil, .emit h .nil⟩
    | halt h => exact ⟨[], .nil, .halt h .nil⟩
    | raise h => trivial
    | @tau s x x' o h _ ih =>
      cases o with
      | item b q => obtain ⟨es, h1, h2⟩ := ih; exact ⟨es, h1, .tau h h2⟩
      | fin q => obtain ⟨es, h1, h2⟩ := ih; exact ⟨es, h1, .tau h h2⟩
      | err => trivial
    | reset h => exact absurd h (hr _ _)
    | @pullItem s x i f g a s' o h hs _ ih =>
      cases o with
      | item b q => obtain ⟨es, h1, h2⟩ := ih; exact ⟨_, .item hs h1, .pullItem h h2⟩
      | fin q => obtain ⟨es, h1, h2⟩ := ih; exact ⟨_, .item hs h1, .pullItem h h2⟩
      | err => trivial
    | @pullFin s x i f g s' o h hs _ ih =>
      cases o with
      | item b q => obtain ⟨es, h1, h2⟩ := ih; exact ⟨_, .fin hs h1, .pullFin h h2⟩
      | fin q => obtain ⟨es, h1, h2⟩ := ih; exact ⟨_, .fin hs h1, .pullFin h h2⟩
      | err => trivial
    | pullErr => trivial
  induction h with
  | nil => exact ⟨[], .nil, .nil⟩
  | item h _ ih =>
    obtain ⟨es, h1, h2⟩ := aux (wrapMulti_obs.1 h)
    obtain ⟨es', h3, h4⟩ := ih
    exact ⟨_, h1.append h3, h2.append h4⟩
  | fin h _ ih =>
    obtain ⟨es, h1, h2⟩ := aux (wrapMulti_obs.1 h)
    obtain ⟨es', h3, h4⟩ := ih
    exact ⟨_, h1.append h3, h2.append h4⟩

end

end Verif.Stream
