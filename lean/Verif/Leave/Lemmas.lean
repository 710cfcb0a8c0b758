import Mathlib.Tactic.Choose
import Verif.Leave.Spec
import Verif.Stream.Multi

/-! # Leaving loops: how wrappers compose -/

namespace Verif.Stream

variable {σ κ α β ι S X KX C : Type}

theorem noLeave_append (a b : List (Op α)) : noLeave (a ++ b) = noLeave a ++ noLeave b := List.filter_append ..
theorem noEnds_append (a b : List (Op α)) : noEnds (a ++ b) = noEnds a ++ noEnds b := List.filter_append ..

/-- `L s t`: `t` is `s`, with some of the generators dropped. -/
structure Leaving (D : Dataset σ α κ) (leave : σ → σ) (e : Bool) (L : σ → σ → Prop) : Prop where
  refl : ∀ s, D.Paused false s → L s s
  leave : ∀ s t, D.Paused false s → L s t → L s (leave t) ∨ (e = true ∧ ∃ s', Obs D.step s (.fin s') ∧ L s' (leave t))
  sim : ∀ s t, D.Paused false s → L s t → ∀ o, Obs D.step s o → ∃ o', Obs D.step t o' ∧ Out.Rel L o o'
  sim' : ∀ s t, D.Paused false s → L s t → ∀ o', Obs D.step t o' → ∃ o, Obs D.step s o ∧ Out.Rel L o o'
  save : ∀ s t, L s t → D.save t = D.save s

/-- Loops can be left; `e`: a loop left after its last sample does not report its end. -/
def Dataset.Leavable (D : Dataset σ α κ) (leave : σ → σ) (e : Bool) : Prop := ∃ L, Leaving D leave e L

namespace Leaving
variable {D : Dataset σ α κ} {leave : σ → σ} {e : Bool} {L : σ → σ → Prop}

theorem equiv (h : Leaving D leave e L) {s t : σ} (hs : D.Paused false s) (hst : L s t) : D.Equiv s t := by
  refine Dataset.Equiv.of_bisim (R := fun s t => D.Paused false s ∧ L s t) ?_ ?_ ⟨hs, hst⟩
  · rintro s t ⟨hs, hst⟩ o ho
    obtain ⟨o', h1, h2⟩ := h.sim s t hs hst o ho
    refine ⟨o', h1, ?_⟩
    cases h2 with
    | item h2 => exact .item ⟨.item hs ho, h2⟩
    | fin h2 => exact .fin ⟨.fin hs ho, h2⟩
    | err => exact .err
  · rintro t s ⟨hs, hst⟩ o' ho
    obtain ⟨o, h1, h2⟩ := h.sim' s t hs hst o' ho
    refine ⟨o, h1, ?_⟩
    cases h2 with
    | item h2 => exact .item ⟨.item hs h1, h2⟩
    | fin h2 => exact .fin ⟨.fin hs h1, h2⟩
    | err => exact .err

theorem life (h : Leaving D leave e L) {ops : List (Op α)} {t : σ} (ht : D.Life leave ops t) :
    ∃ ops' s, D.Life leave ops' s ∧ noLeave ops' = ops' ∧ noEnds ops' = noEnds ops ∧ (e = false → ops' = noLeave ops) ∧ L s t ∧ D.Paused false s := by
  induction ht with
  | init => exact ⟨_, _, .init, rfl, rfl, fun _ => rfl, h.refl _ .init, .init⟩
  | item _ ho ih =>
    obtain ⟨ops', s, h1, h2, h3, h4, h5, hp⟩ := ih
    obtain ⟨o, h6, h7⟩ := h.sim' _ _ hp h5 _ ho
    cases h7 with
    | item h7 => exact ⟨_, _, .item h1 h6, by rw [noLeave_append, h2]; rfl, by rw [noEnds_append, noEnds_append, h3], fun he => by rw [h4 he, noLeave_append]; rfl, h7, .item hp h6⟩
  | fin _ ho ih =>
    obtain ⟨ops', s, h1, h2, h3, h4, h5, hp⟩ := ih
    obtain ⟨o, h6, h7⟩ := h.sim' _ _ hp h5 _ ho
    cases h7 with
    | fin h7 => exact ⟨_, _, .fin h1 h6, by rw [noLeave_append, h2]; rfl, by rw [noEnds_append, noEnds_append, h3], fun he => by rw [h4 he, noLeave_append]; rfl, h7, .fin hp h6⟩
  | resume _ ih =>
    obtain ⟨ops', s, h1, h2, h3, h4, h5, hp⟩ := ih
    refine ⟨_, _, .resume h1, by rw [noLeave_append, h2]; rfl, by rw [noEnds_append, noEnds_append, h3], fun he => by rw [h4 he, noLeave_append]; rfl, ?_, .resume hp⟩
    rw [h.save _ _ h5]
    exact h.refl _ (.resume hp)
  | leave _ ih =>
    obtain ⟨ops', s, h1, h2, h3, h4, h5, hp⟩ := ih
    rcases h.leave _ _ hp h5 with h6 | ⟨he, s', h6, h7⟩
    · exact ⟨ops', s, h1, h2, by rw [noEnds_append, h3]; simp [noEnds], fun he => by rw [h4 he, noLeave_append]; simp [noLeave], h6, hp⟩
    · exact ⟨_, s', .fin h1 h6, by rw [noLeave_append, h2]; rfl, by rw [noEnds_append, noEnds_append, h3]; simp [noEnds],
        (by intro h; rw [he] at h; cases h), h7, .fin hp h6⟩

end Leaving

theorem Dataset.Leavable.exactly {D : Dataset σ α κ} {leave : σ → σ} (h : D.Leavable leave false) : D.LeavesExactly leave := by
  obtain ⟨L, h⟩ := h
  intro ops t ht
  obtain ⟨ops', s, h1, _, _, h4, h5, hp⟩ := h.life ht
  cases h4 rfl
  exact ⟨s, h1, h.equiv hp h5⟩

theorem Dataset.Leavable.upToEnd {D : Dataset σ α κ} {leave : σ → σ} {e : Bool} (h : D.Leavable leave e) : D.LeavesUpToEnd leave := by
  obtain ⟨L, h⟩ := h
  intro ops t ht
  obtain ⟨ops', s, h1, h2, h3, _, h5, hp⟩ := h.life ht
  exact ⟨ops', s, h1, h2, h3, h.equiv hp h5⟩

theorem Dataset.Leavable.mono {D : Dataset σ α κ} {leave : σ → σ} (e : Bool) (h : D.Leavable leave false) : D.Leavable leave e := by
  obtain ⟨L, h⟩ := h
  exact ⟨L, h.refl, fun s t hs hst => .inl ((h.leave s t hs hst).resolve_right (by simp)), h.sim, h.sim', h.save⟩

/-- A dataset whose generators are kept. -/
theorem leavable_id (D : Dataset σ α κ) : D.Leavable id false :=
  ⟨Eq, fun _ _ => rfl, fun _ _ _ h => .inl h, (by
    rintro s _ _ rfl o ho
    refine ⟨o, ho, ?_⟩
    cases o with
    | item => exact .item rfl
    | fin => exact .fin rfl
    | err => exact .err), (by
    rintro s _ _ rfl o ho
    refine ⟨o, ho, ?_⟩
    cases o with
    | item => exact .item rfl
    | fin => exact .fin rfl
    | err => exact .err), fun _ _ h => by rw [h]⟩

/-- Only internal steps of the wrapper itself lead from `x` to `z`. -/
inductive Wrapper.Taus (W : Wrapper ι α β X KX) : X → X → Prop where
  | refl {x} : W.Taus x x
  | tau {x y z} : W.act x = .tau y → W.Taus y z → W.Taus x z

theorem Wrapper.Taus.obs {src : Source ι S α} {W : Wrapper ι α β X KX} {x z : X} (h : W.Taus x z) {s : S} {o : Out (S × X) β} :
    WObs src W s x o ↔ WObs src W s z o := by
  induction h with
  | refl => exact Iff.rfl
  | tau ha _ ih =>
    constructor
    · intro h
      cases h with
      | emit h => rw [ha] at h; cases h
      | halt h => rw [ha] at h; cases h
      | raise h => rw [ha] at h; cases h
      | tau h h' => rw [ha] at h; cases h; exact ih.1 h'
      | reset h => rw [ha] at h; cases h
      | pullItem h => rw [ha] at h; cases h
      | pullFin h => rw [ha] at h; cases h
      | pullErr h => rw [ha] at h; cases h
    · exact fun h => .tau ha (ih.2 h)

/-- Leaving the loop in `x` is caught up by internal steps. -/
def Wrapper.Catch (W : Wrapper ι α β X KX) (lx : X → X) (x : X) : Prop := ∃ z, W.Taus x z ∧ W.Taus (lx x) z

/-- What is needed of a wrapper: leaving the loop in a suspended state (`Q`) is caught up by internal steps, or (only if `e`) is like reporting the end. -/
structure Catches (W : Wrapper ι α β X KX) (lx : X → X) (Q : X → Prop) (e : Bool) : Prop where
  up : ∀ x, Q x → W.Catch lx x ∨ (e = true ∧ ∃ z, W.Taus x z ∧ W.act z = .halt (lx x))
  idem : ∀ x, Q x → lx (lx x) = lx x
  save : ∀ x, Q x → W.save (lx x) = W.save x

theorem Wrapper.Catch.obs {src : Source ι S α} {W : Wrapper ι α β X KX} {lx : X → X} {x : X} (h : W.Catch lx x) {s : S} {o : Out (S × X) β} :
    WObs src W s (lx x) o ↔ WObs src W s x o := by
  obtain ⟨z, h1, h2⟩ := h
  exact h2.obs.trans h1.obs.symm

section single
variable {D : Dataset σ α κ} {W : Wrapper Unit α β X KX}

/-- Leaving a wrapper: the generator of the wrapper and those of the inner dataset are dropped. -/
def leaveW (l : σ → σ) (lx : X → X) : σ × X → σ × X := fun p => (l p.1, lx p.2)

theorem wrap_leavable {l : σ → σ} {lx : X → X} {J Q : X → Prop} (hD : D.Leavable l false) (hr : W.NoReset)
    (H : WInv (Source.single D) W (D.Paused false) J Q) (hi : Q W.init) (hres : ∀ x, Q x → Q (W.resume (W.save x)))
    {e : Bool} (hc : Catches W lx Q e) : (wrap D W).Leavable (leaveW l lx) e := by
  obtain ⟨L, hL⟩ := hD
  have hp : ∀ {p : σ × X}, (wrap D W).Paused false p → D.Paused false p.1 ∧ Q p.2 :=
    fun h => wrap_paused H hi hres (by simp) h
  refine ⟨fun p q => Q p.2 ∧ L p.1 q.1 ∧ (q.2 = p.2 ∨ q.2 = lx p.2 ∧ W.Catch lx p.2), ?_, ?_, ?_, ?_, ?_⟩
  · intro p h
    exact ⟨(hp h).2, hL.refl _ (hp h).1, .inl rfl⟩
  · rintro ⟨s, x⟩ ⟨t, y⟩ h ⟨hx, hst, hxy⟩
    have hl := (hL.leave s t (hp h).1 hst).resolve_right (by simp)
    simp only [leaveW] at hxy hx ⊢
    rcases hxy with rfl | ⟨rfl, hk⟩
    · rcases hc.up _ hx with hk | ⟨he, z, h1, h2⟩
      · exact .inl ⟨hx, hl, .inr ⟨rfl, hk⟩⟩
      · have ho : WObs (Source.single D) W s y (.fin (s, lx y)) := h1.obs.2 (.halt h2)
        exact .inr ⟨he, (s, lx y), wrap_obs.2 ho, (WObs.inv H ho (hp h).1 (H.resume_to _ hx)).2, hl, .inl rfl⟩
    · exact .inl ⟨hx, hl, .inr ⟨hc.idem _ hx, hk⟩⟩
  · rintro ⟨s, x⟩ ⟨t, y⟩ h ⟨hx, hst, hxy⟩ o ho
    simp only at hx hst hxy
    have hs := (hp h).1
    have ho' := wrap_obs.1 ho
    obtain ⟨o', h1, h2⟩ := WObs.congr (src := Source.single D) (E := fun s t => D.Paused false s ∧ L s t) (fun _ s t hst o ho => by
      obtain ⟨o', h1, h2⟩ := hL.sim s t hst.1 hst.2 o ho
      refine ⟨o', h1, ?_⟩
      cases h2 with
      | item h2 => exact .item ⟨.item hst.1 ho, h2⟩
      | fin h2 => exact .fin ⟨.fin hst.1 ho, h2⟩
      | err => exact .err) (fun x x' hx => absurd hx (hr x x')) ho' ⟨hs, hst⟩
    have h3 := WObs.inv H ho' hs (H.resume_to _ hx)
    refine ⟨o', wrap_obs.2 ?_, ?_⟩
    · rcases hxy with rfl | ⟨rfl, hk⟩
      · exact h1
      · exact hk.obs.2 h1
    · cases h2 with
      | item h2 => exact .item ⟨h3.2, h2.2.2, .inl h2.1.symm⟩
      | fin h2 => exact .fin ⟨h3.2, h2.2.2, .inl h2.1.symm⟩
      | err => exact .err
  · rintro ⟨s, x⟩ ⟨t, y⟩ h ⟨hx, hst, hxy⟩ o ho
    simp only at hx hst hxy
    have hs := (hp h).1
    have ho' : WObs (Source.single D) W t x o := by
      rcases hxy with rfl | ⟨rfl, hk⟩
      · exact wrap_obs.1 ho
      · exact hk.obs.1 (wrap_obs.1 ho)
    obtain ⟨o', h1, h2⟩ := WObs.congr (src := Source.single D) (E := fun t s => D.Paused false s ∧ L s t) (fun _ t s hst o ho => by
      obtain ⟨o', h1, h2⟩ := hL.sim' s t hst.1 hst.2 o ho
      refine ⟨o', h1, ?_⟩
      cases h2 with
      | item h2 => exact .item ⟨.item hst.1 h1, h2⟩
      | fin h2 => exact .fin ⟨.fin hst.1 h1, h2⟩
      | err => exact .err) (fun x x' hx => absurd hx (hr x x')) ho' ⟨hs, hst⟩
    have h3 := WObs.inv H h1 hs (H.resume_to _ hx)
    refine ⟨o', wrap_obs.2 h1, ?_⟩
    cases h2 with
    | item h2 => exact .item ⟨h3.2, h2.2.2, .inl h2.1⟩
    | fin h2 => exact .fin ⟨h3.2, h2.2.2, .inl h2.1⟩
    | err => exact .err
  · rintro ⟨s, x⟩ ⟨t, y⟩ ⟨hx, hst, hxy⟩
    simp only at hx hst hxy
    show (D.save t, W.save y) = (D.save s, W.save x)
    rw [hL.save _ _ hst]
    rcases hxy with rfl | ⟨rfl, _⟩
    · rfl
    · rw [hc.save _ hx]

end single

section multi
variable {D : Nat → Dataset σ α κ} {W : Wrapper Nat α β X KX}

theorem multi_sim_of {E : Nat → σ → σ → Prop} (h : ∀ j, Sim (D j).step (D j).step (E j)) (i : Nat) :
    Sim ((Source.multi D).pull i) ((Source.multi D).pull i) (fun S T => ∀ j, E j (S j) (T j)) := by
  intro S T hst o ho
  obtain ⟨o1, h1, rfl⟩ := multi_obs_inv ho
  obtain ⟨o2, h2, h3⟩ := h i _ _ (hst i) _ h1
  refine ⟨_, multi_obs_of h2, ?_⟩
  have key : ∀ {s t}, E i s t → ∀ j, E j (upd S i s j) (upd T i t j) := by
    intro s t h j
    by_cases hj : j = i
    · subst hj; rw [upd_same, upd_same]; exact h
    · rw [upd_other _ hj, upd_other _ hj]; exact hst j
  cases h3 with
  | item h3 => exact .item (key h3)
  | fin h3 => exact .fin (key h3)
  | err => exact .err

/-- Leaving a dataset over several datasets. -/
def leaveMulti (l : Nat → σ → σ) (lx : X → X) : (Nat → σ) × X → (Nat → σ) × X := fun p => (fun i => l i (p.1 i), lx p.2)

theorem wrapMulti_leavable {l : Nat → σ → σ} {lx : X → X} {J Q : X → Prop} (hD : ∀ i, (D i).Leavable (l i) false) (hr : W.NoReset)
    (H : WInv (Source.multi D) W (fun S => ∀ j, (D j).Paused false (S j)) J Q) (hi : Q W.init) (hres : ∀ x, Q x → Q (W.resume (W.save x)))
    {e : Bool} (hc : Catches W lx Q e) : (wrapMulti D W).Leavable (leaveMulti l lx) e := by
  choose L hL using hD
  have hp : ∀ {p : (Nat → σ) × X}, (wrapMulti D W).Paused false p → (∀ j, (D j).Paused false (p.1 j)) ∧ Q p.2 :=
    fun h => wrapMulti_paused H hi hres (by simp) h
  refine ⟨fun p q => Q p.2 ∧ (∀ j, L j (p.1 j) (q.1 j)) ∧ (q.2 = p.2 ∨ q.2 = lx p.2 ∧ W.Catch lx p.2), ?_, ?_, ?_, ?_, ?_⟩
  · intro p h
    exact ⟨(hp h).2, fun j => (hL j).refl _ ((hp h).1 j), .inl rfl⟩
  · rintro ⟨s, x⟩ ⟨t, y⟩ h ⟨hx, hst, hxy⟩
    have hl := fun j => ((hL j).leave _ _ ((hp h).1 j) (hst j)).resolve_right (by simp)
    simp only [leaveMulti] at hxy hx ⊢
    rcases hxy with rfl | ⟨rfl, hk⟩
    · rcases hc.up _ hx with hk | ⟨he, z, h1, h2⟩
      · exact .inl ⟨hx, hl, .inr ⟨rfl, hk⟩⟩
      · have ho : WObs (Source.multi D) W s y (.fin (s, lx y)) := h1.obs.2 (.halt h2)
        exact .inr ⟨he, (s, lx y), wrapMulti_obs.2 ho, (WObs.inv H ho (hp h).1 (H.resume_to _ hx)).2, hl, .inl rfl⟩
    · exact .inl ⟨hx, hl, .inr ⟨hc.idem _ hx, hk⟩⟩
  · rintro ⟨s, x⟩ ⟨t, y⟩ h ⟨hx, hst, hxy⟩ o ho
    simp only at hx hst hxy
    have hs := (hp h).1
    have ho' := wrapMulti_obs.1 ho
    obtain ⟨o', h1, h2⟩ := WObs.congr (src := Source.multi D) (E := fun S T => ∀ j, (D j).Paused false (S j) ∧ L j (S j) (T j))
      (multi_sim_of (E := fun j s t => (D j).Paused false s ∧ L j s t) fun j s t hst o ho => by
      obtain ⟨o', h1, h2⟩ := (hL j).sim s t hst.1 hst.2 o ho
      refine ⟨o', h1, ?_⟩
      cases h2 with
      | item h2 => exact .item ⟨.item hst.1 ho, h2⟩
      | fin h2 => exact .fin ⟨.fin hst.1 ho, h2⟩
      | err => exact .err) (fun x x' hx => absurd hx (hr x x')) ho' (fun j => ⟨hs j, hst j⟩)
    have h3 := WObs.inv H ho' hs (H.resume_to _ hx)
    refine ⟨o', wrapMulti_obs.2 ?_, ?_⟩
    · rcases hxy with rfl | ⟨rfl, hk⟩
      · exact h1
      · exact hk.obs.2 h1
    · cases h2 with
      | item h2 => exact .item ⟨h3.2, fun j => (h2.2 j).2, .inl h2.1.symm⟩
      | fin h2 => exact .fin ⟨h3.2, fun j => (h2.2 j).2, .inl h2.1.symm⟩
      | err => exact .err
  · rintro ⟨s, x⟩ ⟨t, y⟩ h ⟨hx, hst, hxy⟩ o ho
    simp only at hx hst hxy
    have hs := (hp h).1
    have ho' : WObs (Source.multi D) W t x o := by
      rcases hxy with rfl | ⟨rfl, hk⟩
      · exact wrapMulti_obs.1 ho
      · exact hk.obs.1 (wrapMulti_obs.1 ho)
    obtain ⟨o', h1, h2⟩ := WObs.congr (src := Source.multi D) (E := fun T S => ∀ j, (D j).Paused false (S j) ∧ L j (S j) (T j))
      (multi_sim_of (E := fun j t s => (D j).Paused false s ∧ L j s t) fun j t s hst o ho => by
      obtain ⟨o', h1, h2⟩ := (hL j).sim' s t hst.1 hst.2 o ho
      refine ⟨o', h1, ?_⟩
      cases h2 with
      | item h2 => exact .item ⟨.item hst.1 h1, h2⟩
      | fin h2 => exact .fin ⟨.fin hst.1 h1, h2⟩
      | err => exact .err) (fun x x' hx => absurd hx (hr x x')) ho' (fun j => ⟨hs j, hst j⟩)
    have h3 := WObs.inv H h1 hs (H.resume_to _ hx)
    refine ⟨o', wrapMulti_obs.2 h1, ?_⟩
    cases h2 with
    | item h2 => exact .item ⟨h3.2, fun j => (h2.2 j).2, .inl h2.1⟩
    | fin h2 => exact .fin ⟨h3.2, fun j => (h2.2 j).2, .inl h2.1⟩
    | err => exact .err
  · rintro ⟨s, x⟩ ⟨t, y⟩ ⟨hx, hst, hxy⟩
    simp only at hx hst hxy
    show ((fun i => (D i).save (t i)), W.save y) = ((fun i => (D i).save (s i)), W.save x)
    have : (fun i => (D i).save (t i)) = fun i => (D i).save (s i) := by funext i; exact (hL i).save _ _ (hst i)
    rw [this]
    rcases hxy with rfl | ⟨rfl, _⟩
    · rfl
    · rw [hc.save _ hx]

end multi

end Verif.Stream
