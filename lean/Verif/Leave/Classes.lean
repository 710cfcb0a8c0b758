import Verif.Leave.Model
import Verif.Pipeline.Endless
import Verif.Wrap.BlendProps
import Verif.Wrap.GroupProps
import Verif.Wds.LoaderProps
import Verif.Loader.PlainModel

/-! # Leaving a loop: the dataset classes -/

namespace Verif.Stream

variable {σ κ C C' K ρ α β X KX ι S : Type}

theorem WInv.congr_act {KX' : Type} {src : Source ι S α} {W : Wrapper ι α β X KX} {W' : Wrapper ι α β X KX'} {P : S → Prop} {J Q : X → Prop}
    (H : WInv src W P J Q) (h : W'.act = W.act) : WInv src W' P J Q :=
  { resume_to := H.resume_to
    emit := by rw [h]; exact H.emit
    halt := by rw [h]; exact H.halt
    tau := by rw [h]; exact H.tau
    reset := by rw [h]; exact H.reset
    resetP := by rw [h]; exact H.resetP
    pullItem := by rw [h]; exact H.pullItem
    pullFin := by rw [h]; exact H.pullFin }

/-- The webdataset reader -/
theorem loader_leavable {R : Wds.WRng ρ} {c : Wds.Cfg C} {rs : List Key → Option (Smp C)} (hd : (c.shards.map (·.id)).Nodup) :
    (Wds.loaderD R c rs).Leavable ldLeave false := by
  have hobs : ∀ {x : Wds.LdX C ρ} {o}, Wds.AtRest c x → (Obs (Wds.loaderD R c rs).step (ldLeave x) o ↔ Obs (Wds.loaderD R c rs).step x o) := by
    intro x o h
    rcases h.2 with h' | ⟨h1, h2, h3⟩
    · obtain ⟨_, _, _, _, _, _, _⟩ := x
      cases h'
      exact Iff.rfl
    · have s1 : (Wds.loaderD R c rs).step (ldLeave x) = .skip { x with ctl := .top } := by
        simp [Wds.loaderD, Wds.ldStep, ldLeave, h3]
      have s2 : (Wds.loaderD R c rs).step { x with ctl := .top } = .skip x := by
        obtain ⟨_, _, _, _, _, _, _⟩ := x
        cases h1
        simp only [Wds.loaderD, Wds.ldStep]
        rw [if_pos]
        simp only [Bool.or_eq_true]
        exact .inl h2
      exact (Obs.skip_iff s1).trans (Obs.skip_iff s2)
  have self : ∀ o : Out (Wds.LdX C ρ) (Smp C), Out.Rel (fun s t => t = s ∨ t = ldLeave s) o o := by
    intro o
    cases o with
    | item => exact .item (.inl rfl)
    | fin => exact .fin (.inl rfl)
    | err => exact .err
  refine ⟨fun s t => t = s ∨ t = ldLeave s, fun _ _ => .inl rfl, ?_, ?_, ?_, ?_⟩
  · rintro s t _ (rfl | rfl)
    · exact .inl (.inr rfl)
    · exact .inl (.inr rfl)
  · rintro s t hs (rfl | rfl) o ho
    · exact ⟨o, ho, self o⟩
    · exact ⟨o, (hobs (Wds.paused_atRest hd hs)).2 ho, self o⟩
  · rintro s t hs (rfl | rfl) o ho
    · exact ⟨o, ho, self o⟩
    · exact ⟨o, (hobs (Wds.paused_atRest hd hs)).1 ho, self o⟩
  · rintro s t (rfl | rfl)
    · rfl
    · rfl

/-- Filter, map (plain function), log, garbage collection, the loader without worker processes -/
theorem loop_leavable {D : Dataset σ α κ} {W : Wrapper Unit α β (LoopX α) KX} {body : Nat → α → LoopRes β} {rs : List Key → Option β} {has : Bool}
    (hact : W.act = (loopW body rs has).act) (hi : W.init.ctl = .loop) (hres : ∀ k, (W.resume k).ctl = .loop) {l : σ → σ} {e : Bool}
    (hD : D.Leavable l e) : (wrap D W).Leavable (leaveW l loopLeave) e := by
  obtain ⟨L, hL⟩ := hD
  have H : WInv (Source.single D) W (D.Paused false) (fun x => ∀ a, x.ctl = .got a → D.Yields false a) (fun x => x.ctl = .loop) :=
    (loopW_inv (body := body) (rs := rs) (has := has) false).congr_act hact
  have hr : W.NoReset := by
    intro x x'
    rw [hact]
    exact loopW_noReset x x'
  have hp : ∀ {p : σ × LoopX α}, (wrap D W).Paused false p → D.Paused false p.1 ∧ p.2.ctl = .loop :=
    fun h => wrap_paused H hi (fun _ _ => hres _) (by simp) h
  refine ⟨fun p q => p.2.ctl = .loop ∧ L p.1 q.1 ∧ q.2 = p.2, ?_, ?_, ?_, ?_, ?_⟩
  · intro p h
    exact ⟨(hp h).2, hL.refl _ (hp h).1, rfl⟩
  · rintro ⟨s, ⟨n, c⟩⟩ ⟨t, y⟩ h ⟨hx, hst, hxy⟩
    simp only at hx hst hxy
    subst hx hxy
    rcases hL.leave s t (hp h).1 hst with h1 | ⟨he, s', h1, h2⟩
    · exact .inl ⟨rfl, h1, rfl⟩
    · have e1 : W.act ⟨n, .loop⟩ = .pull () (fun a => ⟨n, .got a⟩) ⟨n, .done⟩ := by rw [hact]; rfl
      have e2 : W.act ⟨n, .done⟩ = .halt ⟨n, .loop⟩ := by rw [hact]; rfl
      exact .inr ⟨he, (s', ⟨n, .loop⟩), wrap_obs.2 (.pullFin e1 h1 (.halt e2)), rfl, h2, rfl⟩
  · rintro ⟨s, x⟩ ⟨t, y⟩ h ⟨hx, hst, hxy⟩ o ho
    simp only at hx hst hxy
    subst hxy
    have hs := (hp h).1
    have ho' := wrap_obs.1 ho
    obtain ⟨o', h1, h2⟩ := WObs.congr (src := Source.single D) (E := fun s t => D.Paused false s ∧ L s t) (fun _ s t hst o ho => by
      obtain ⟨o', h1, h2⟩ := hL.sim s t hst.1 hst.2 o ho
      refine ⟨o', h1, ?_⟩
      cases h2 with
      | item h2 => exact .item ⟨.item hst.1 ho, h2⟩
      | fin h2 => exact .fin ⟨.fin hst.1 ho, h2⟩
      | err => exact .err) (fun x x' hx => absurd hx (hr x x')) ho' ⟨hs, hst⟩
    have h3 := WObs.inv H ho' hs (H.resume_to _ hx)
    refine ⟨o', wrap_obs.2 h1, ?_⟩
    cases h2 with
    | item h2 => exact .item ⟨h3.2, h2.2.2, h2.1.symm⟩
    | fin h2 => exact .fin ⟨h3.2, h2.2.2, h2.1.symm⟩
    | err => exact .err
  · rintro ⟨s, x⟩ ⟨t, y⟩ h ⟨hx, hst, hxy⟩ o ho
    simp only at hx hst hxy
    subst hxy
    have hs := (hp h).1
    have ho' := wrap_obs.1 ho
    obtain ⟨o', h1, h2⟩ := WObs.congr (src := Source.single D) (E := fun t s => D.Paused false s ∧ L s t) (fun _ t s hst o ho => by
      obtain ⟨o', h1, h2⟩ := hL.sim' s t hst.1 hst.2 o ho
      refine ⟨o', h1, ?_⟩
      cases h2 with
      | item h2 => exact .item ⟨.item hst.1 h1, h2⟩
      | fin h2 => exact .fin ⟨.fin hst.1 h1, h2⟩
      | err => exact .err) (fun x x' hx => absurd hx (hr x x')) ho' ⟨hs, hst⟩
    have h3 := WObs.inv H h1 hs (H.resume_to _ hx)
    refine ⟨o', wrap_obs.2 h1, ?_⟩
    cases h2 with
    | item h2 => exact .item ⟨h3.2, h2.2.2, h2.1⟩
    | fin h2 => exact .fin ⟨h3.2, h2.2.2, h2.1⟩
    | err => exact .err
  · rintro ⟨s, x⟩ ⟨t, y⟩ ⟨_, hst, hxy⟩
    simp only at hst hxy
    subst hxy
    show (D.save t, W.save _) = (D.save s, W.save _)
    rw [hL.save _ _ hst]

theorem blend_leavable {D : Nat → Dataset σ (Smp C) κ} {n : Nat} {R : Rng ρ} {l : Nat → σ → σ} (hD : ∀ i, (D i).Leavable (l i) false) :
    (blendD D n R).Leavable (leaveMulti l blendLeave) false := by
  refine wrapMulti_leavable hD blend_noReset (blend_inv false) (.inl rfl) (fun _ _ => .inl rfl) ⟨?_, fun _ _ => rfl, fun _ _ => rfl⟩
  rintro ⟨g, c⟩ (h | ⟨h, h'⟩) <;> simp only at h <;> subst h
  · exact .inl ⟨_, .refl, .refl⟩
  · refine .inl ⟨⟨g, .draw⟩, .refl, .tau ?_ .refl⟩
    simp only [blendW, blendLeave]
    rw [if_neg]
    simpa [List.isEmpty_iff, ← List.length_pos_iff] using h'

theorem shuffle_leavable {D : Dataset σ (Smp C) κ} {R : Rng ρ} {size : Nat} {l : σ → σ} (hD : D.Leavable l false) (hN : D.NeverEnds) :
    (shuffleD D R size).Leavable (leaveW l shufLeave) false := by
  have H : WInv (Source.single D) (shuffleW D R size) (D.Paused false) (fun x => x.ctl ≠ .drain) (fun x => x.ctl ≠ .drain) := by
    refine WInv.mk' shuffle_noReset (fun _ h => h) ?_ ?_ ?_ ?_ ?_
    · intro x b x' hx h
      rcases shuffle_act_cases (D := D) (R := R) (size := size) x with ⟨i, g, hi, hc, _, he⟩ | ⟨hc, _, he⟩ | ⟨_, _, he⟩ | ⟨_, he⟩ <;>
        rw [h] at he <;> cases he
      exact hx
    · intro x x' hx h
      rcases shuffle_act_cases (D := D) (R := R) (size := size) x with ⟨i, g, hi, hc, _, he⟩ | ⟨hc, _, he⟩ | ⟨hc, _, he⟩ | ⟨_, he⟩ <;>
        rw [h] at he <;> cases he
      exact absurd hc hx
    · intro x x' hx h
      rcases shuffle_act_cases (D := D) (R := R) (size := size) x with ⟨i, g, hi, hc, _, he⟩ | ⟨hc, _, he⟩ | ⟨_, _, he⟩ | ⟨_, he⟩ <;>
        rw [h] at he <;> cases he
    · intro x i f g hx h a _
      rcases shuffle_act_cases (D := D) (R := R) (size := size) x with ⟨i, g, hi, hc, _, he⟩ | ⟨hc, _, he⟩ | ⟨_, _, he⟩ | ⟨_, he⟩ <;>
        rw [h] at he <;> cases he
      exact hx
    · intro x i f g hx h hn
      exact absurd hN hn
  have e : ∀ x : ShufX ρ C, x.ctl ≠ .drain → shufLeave x = x := by
    rintro ⟨b, g, c⟩ h
    cases c with
    | fill => rfl
    | dead => rfl
    | drain => exact absurd rfl h
  refine wrap_leavable hD shuffle_noReset H (by simp [shuffleW]) ?_ ⟨?_, ?_, ?_⟩
  · intro x _
    simp only [shuffleW]
    split <;> simp
  · intro x hx
    exact .inl ⟨x, .refl, by rw [e x hx]; exact .refl⟩
  · intro x hx
    rw [e x hx, e x hx]
  · intro x hx
    rw [e x hx]

theorem batch_leavable {D : Dataset σ (Smp C) κ} {bs : Nat} {dl : Bool} {f : BatchFn C C'} {l : σ → σ} {e : Bool} (hD : D.Leavable l false)
    (hN : e = true ∨ D.NeverEnds) : (batchD D bs dl f).Leavable (leaveW l batchLeave) e := by
  refine wrap_leavable hD batch_noReset (batch_inv' false) (.inl ⟨rfl, rfl, rfl⟩) (fun _ _ => .inl ⟨rfl, rfl, rfl⟩) ⟨?_, fun _ _ => rfl, fun _ _ => rfl⟩
  rintro ⟨i, b, ks, c⟩ (⟨h1, h2, h3⟩ | ⟨last, h1, h2⟩) <;> simp only at *
  · subst h1 h2 h3
    exact .inl ⟨_, .refl, .refl⟩
  · subst h1
    cases last with
    | true =>
      rcases hN with he | hN
      · exact .inr ⟨he, ⟨i, [], [], .done⟩, .tau rfl .refl, rfl⟩
      · exact absurd hN (h2 rfl)
    | false => exact .inl ⟨⟨i, [], [], .loop⟩, .tau rfl .refl, .refl⟩

theorem group_leavable [DecidableEq K] {D : Dataset σ (Smp C) κ} {fixed : Option Nat} {key : GroupFn C K} {dl : Bool} {f : BatchFn C C'} {l : σ → σ}
    (hD : D.Leavable l false) (hN : D.NeverEnds) : (groupD D fixed key f dl).Leavable (leaveW l groupLeave) false := by
  have H : WInv (Source.single D) (groupW D fixed key f dl) (D.Paused false) (fun x => ∀ ks, x.ctl ≠ .final ks) (fun x => x.ctl = .loop) := by
    refine WInv.mk' group_noReset ?_ ?_ ?_ ?_ ?_ ?_
    · intro x h ks
      rw [h]
      simp
    · rintro ⟨g, b, B, c⟩ y x' hx h
      cases c with
      | loop => simp only [groupW] at h; cases h
      | got a =>
        simp only [groupW] at h
        split at h
        · split at h
          · cases h
          · split at h <;> cases h
        · cases h
        · cases h
      | flush k =>
        simp only [groupW, groupFlush] at h
        split at h
        · split at h <;> cases h
          rfl
        · cases h
      | final ks => exact absurd rfl (hx ks)
    · rintro ⟨g, b, B, c⟩ x' hx h
      cases c with
      | loop => simp only [groupW] at h; cases h
      | got a =>
        simp only [groupW] at h
        split at h
        · split at h
          · cases h
          · split at h <;> cases h
        · cases h
        · cases h
      | flush k =>
        simp only [groupW, groupFlush] at h
        split at h
        · split at h <;> cases h
        · cases h
      | final ks => exact absurd rfl (hx ks)
    · rintro ⟨g, b, B, c⟩ x' hx h
      cases c with
      | loop => simp only [groupW] at h; cases h
      | got a =>
        simp only [groupW] at h
        split at h
        · split at h
          · cases h
            intro ks
            simp only
            split <;> simp
          · split at h <;> cases h
            intro ks
            simp only
            split <;> simp
        · cases h
          simp
        · cases h
      | flush k =>
        simp only [groupW, groupFlush] at h
        split at h
        · split at h <;> cases h
          simp
        · cases h
      | final ks => exact absurd rfl (hx ks)
    · rintro ⟨g, b, B, c⟩ i f' g' hx h a _
      cases c with
      | loop => simp only [groupW] at h; cases h; simp
      | got a =>
        simp only [groupW] at h
        split at h
        · split at h
          · cases h
          · split at h <;> cases h
        · cases h
        · cases h
      | flush k =>
        simp only [groupW, groupFlush] at h
        split at h
        · split at h <;> cases h
        · cases h
      | final ks => exact absurd rfl (hx ks)
    · intro x i f' g' hx h hn
      exact absurd hN hn
  have e : ∀ x : GroupX C K, x.ctl = .loop → groupLeave x = x := by
    rintro ⟨g, b, B, c⟩ h
    cases h
    rfl
  refine wrap_leavable hD group_noReset H rfl (fun _ _ => rfl) ⟨?_, ?_, ?_⟩
  · intro x hx
    exact .inl ⟨x, .refl, by rw [e x hx]; exact .refl⟩
  · intro x hx
    rw [e x hx, e x hx]
  · intro x hx
    rw [e x hx]

theorem pack_leavable {D : Dataset σ (Smp C) κ} {size : Nat} {pre : PreFn C} {f : BatchFn C C'} {l : σ → σ} (hD : D.Leavable l false) (hN : D.NeverEnds) :
    (packD D size pre false (plainFinal f)).Leavable (leaveW l packLeave) false := by
  have hpp : ∀ (x x' : PackX C C') nx, prePack pre x nx = .tau x' → x'.ctl = nx := by
    intro x x' nx h
    unfold prePack at h
    split at h
    · cases h
    · split at h
      · cases h; rfl
      · split at h <;> cases h
        rfl
  have H : WInv (Source.single D) (packW D size pre false (plainFinal f)) (D.Paused false)
      (fun x => packOpen x.ctl ∧ ∀ last idx j keys rest e, x.ctl = .sub last idx j keys rest e → rest.length ≤ 1 ∧ (rest ≠ [] → e = .done) ∧ (0 < j → rest = [] ∧ e = .done))
      (fun x => x.ctl = .check 0 ∨ (∃ idx j keys, x.ctl = .sub false idx j keys [] .done) ∨ x.ctl = .dead) := by
    refine WInv.mk' pack_noReset ?_ ?_ ?_ ?_ ?_ ?_
    · rintro x (h | ⟨idx, j, keys, h⟩ | h)
      · rw [h]; exact ⟨trivial, by simp⟩
      · rw [h]
        refine ⟨rfl, ?_⟩
        intro last idx' j' keys' rest e h
        cases h
        simp
      · rw [h]; exact ⟨trivial, by simp⟩
    · rintro ⟨rb, pb, lens, i, j, c⟩ y x' ⟨hx, hx'⟩ h
      cases c with
      | sub last idx k keys rest e =>
        obtain rfl : last = false := hx
        cases rest with
        | nil => simp only [packW] at h; split at h <;> cases h
        | cons c cs =>
          simp only [packW] at h
          cases h
          obtain ⟨h1, h2, h3⟩ := hx' _ _ _ _ _ _ rfl
          obtain rfl : cs = [] := by simpa using h1
          obtain rfl := h2 (by simp)
          exact .inr (.inl ⟨_, _, _, rfl⟩)
      | check r => simp only [packW] at h; cases h
      | fill r =>
        simp only [packW, prePack] at h
        split at h
        · cases h
        · split at h
          · cases h
          · split at h
            · cases h
            · split at h
              · cases h
              · split at h
                · cases h
                · split at h <;> cases h
      | ended => exact hx.elim
      | final last => simp only [packW] at h; split at h <;> cases h
      | drain => exact hx.elim
      | dead => simp only [packW] at h; cases h
    · rintro ⟨rb, pb, lens, i, j, c⟩ x' ⟨hx, hx'⟩ h
      cases c with
      | sub last idx k keys rest e =>
        cases rest with
        | nil => simp only [packW] at h; split at h <;> cases h
        | cons c cs => simp only [packW] at h; cases h
      | check r => simp only [packW] at h; cases h
      | fill r =>
        simp only [packW, prePack] at h
        split at h
        · cases h
        · split at h
          · cases h
          · split at h
            · cases h
            · split at h
              · cases h
              · split at h
                · cases h
                · split at h <;> cases h
      | ended => exact hx.elim
      | final last => simp only [packW] at h; split at h <;> cases h
      | drain => exact hx.elim
      | dead => simp only [packW] at h; cases h
    · rintro ⟨rb, pb, lens, i, j, c⟩ x' ⟨hx, hx'⟩ h
      cases c with
      | sub last idx k keys rest e =>
        obtain rfl : last = false := hx
        cases rest with
        | nil =>
          simp only [packW] at h
          split at h
          · cases h
          · cases h
            exact ⟨trivial, by simp⟩
        | cons c cs => simp only [packW] at h; cases h
      | check r =>
        simp only [packW] at h
        cases h
        simp only
        split
        · exact ⟨trivial, by simp⟩
        · exact ⟨rfl, by simp⟩
      | fill r =>
        simp only [packW] at h
        split at h
        · cases h
        · split at h
          · cases h
          · split at h
            · cases h
            · rw [hpp _ _ _ h]
              exact ⟨trivial, by simp⟩
      | ended => exact hx.elim
      | final last =>
        obtain rfl : last = false := hx
        simp only [packW] at h
        split at h
        · cases h
        · cases h
          refine ⟨rfl, ?_⟩
          intro last idx' j' keys' rest e h
          cases h
          simp only [plainFinal]
          split <;> simp
      | drain => exact hx.elim
      | dead => simp only [packW] at h; cases h
    · rintro ⟨rb, pb, lens, i, j, c⟩ ix f' g' ⟨hx, hx'⟩ h a _
      cases c with
      | sub last idx k keys rest e =>
        cases rest with
        | nil => simp only [packW] at h; split at h <;> cases h
        | cons c cs => simp only [packW] at h; cases h
      | check r => simp only [packW] at h; cases h
      | fill r =>
        simp only [packW, prePack] at h
        split at h
        · cases h
          exact ⟨trivial, by simp⟩
        · split at h
          · cases h
          · split at h
            · cases h
            · split at h
              · cases h
              · split at h
                · cases h
                · split at h <;> cases h
      | ended => exact hx.elim
      | final last => simp only [packW] at h; split at h <;> cases h
      | drain => exact hx.elim
      | dead => simp only [packW] at h; cases h
    · intro x i f' g' hx h hn
      exact absurd hN hn
  refine wrap_leavable hD pack_noReset H (.inl rfl) ?_ ⟨?_, ?_, ?_⟩
  · intro x _
    simp only [packW]
    split
    · exact .inl rfl
    · exact .inr (.inr rfl)
  · rintro ⟨rb, pb, lens, i, j, c⟩ (h | ⟨idx, j, keys, h⟩ | h) <;> simp only at h <;> subst h
    · exact .inl ⟨_, .refl, .refl⟩
    · exact .inl ⟨⟨rb, pb, lens, i, _, .check 0⟩, .tau (by simp [packW]) .refl, .refl⟩
    · exact .inl ⟨_, .refl, .refl⟩
  · rintro ⟨rb, pb, lens, i, j, c⟩ _
    cases c <;> rfl
  · rintro ⟨rb, pb, lens, i, j, c⟩ _
    cases c <;> rfl

/-- Virtual epochs: whatever the source is, its generators are kept. -/
theorem epochize_leavable {D : Dataset σ α κ} {length nw w : Nat} : (epochizeD D length nw w).Leavable (leaveW id epochLeave) true := by
  unfold epochizeD
  generalize localShare length nw w = len
  generalize hW : epochizeW len D.restoreSample D.hasSamples = W
  have hp : ∀ {p : σ × EpoX α}, (wrap D W).Paused false p → _ := fun h => epochize_paused (len := len) (rs := D.restoreSample) (has := D.hasSamples) (hW ▸ h)
  have hst : ∀ {s : σ} {n : Nat} {o}, n < len → (WObs (Source.single D) W s ⟨n, .start⟩ o ↔ WObs (Source.single D) W s ⟨n, .next n⟩ o) := by
    intro s n o hn
    refine Wrapper.Taus.obs (.tau ?_ .refl)
    rw [← hW]
    simp [epochizeW, hn]
  have self : ∀ o : Out (σ × EpoX α) α, Out.Rel (fun p q : σ × EpoX α => q.1 = p.1 ∧ (q.2 = p.2 ∨ ∃ n, n < len ∧ p.2 = ⟨n, .next n⟩ ∧ q.2 = ⟨n, .start⟩)) o o := by
    intro o
    cases o with
    | item => exact .item ⟨rfl, .inl rfl⟩
    | fin => exact .fin ⟨rfl, .inl rfl⟩
    | err => exact .err
  refine ⟨fun p q => q.1 = p.1 ∧ (q.2 = p.2 ∨ ∃ n, n < len ∧ p.2 = ⟨n, .next n⟩ ∧ q.2 = ⟨n, .start⟩), fun _ _ => ⟨rfl, .inl rfl⟩, ?_, ?_, ?_, ?_⟩
  · rintro ⟨s, x⟩ ⟨t, y⟩ h ⟨h1, h2⟩
    simp only at h1 h2
    subst h1
    rcases h2 with rfl | ⟨n, hn, rfl, rfl⟩
    · obtain ⟨h3, h4⟩ := hp h
      obtain ⟨n, c⟩ := y
      cases c with
      | start => exact .inl ⟨rfl, .inl rfl⟩
      | next i =>
        obtain ⟨h5, h6, h7⟩ := h4
        simp only at h7
        rcases Nat.lt_or_eq_of_le h5 with h8 | h8
        · rw [Nat.mod_eq_of_lt h8] at h7
          subst h7
          exact .inl ⟨rfl, .inr ⟨n, h8, rfl, rfl⟩⟩
        · subst h8
          rw [Nat.mod_self] at h7
          subst h7
          refine .inr ⟨rfl, (t, ⟨0, .start⟩), wrap_obs.2 (.halt ?_), rfl, .inl rfl⟩
          rw [← hW]
          simp [epochizeW]
      | pulling i => exact h4.elim
      | got a i => exact h4.elim
    · exact .inl ⟨rfl, .inr ⟨n, hn, rfl, rfl⟩⟩
  · rintro ⟨s, x⟩ ⟨t, y⟩ h ⟨h1, h2⟩ o ho
    simp only at h1 h2
    subst h1
    rcases h2 with rfl | ⟨n, hn, rfl, rfl⟩
    · exact ⟨o, ho, self o⟩
    · exact ⟨o, wrap_obs.2 ((hst hn).2 (wrap_obs.1 ho)), self o⟩
  · rintro ⟨s, x⟩ ⟨t, y⟩ h ⟨h1, h2⟩ o ho
    simp only at h1 h2
    subst h1
    rcases h2 with rfl | ⟨n, hn, rfl, rfl⟩
    · exact ⟨o, ho, self o⟩
    · exact ⟨o, wrap_obs.2 ((hst hn).1 (wrap_obs.1 ho)), self o⟩
  · rintro ⟨s, x⟩ ⟨t, y⟩ ⟨h1, h2⟩
    simp only at h1 h2
    subst h1
    rcases h2 with rfl | ⟨n, hn, rfl, rfl⟩
    · rfl
    · subst hW
      rfl

end Verif.Stream
