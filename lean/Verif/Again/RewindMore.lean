import Verif.Again.Rewind

/-!
# C94, more: what remains right with virtual epochs

Setting back a used dataset with virtual epochs does not move the running iterator (`C94_violated`). This file says what exactly happens: the attributes hold the restored state
(so a state saved directly afterwards is right), the iterator finishes its old pass, and then goes on with the rest of the restored state; and it happens again each time.
-/

namespace Verif.Stream

variable {ι σ α β κ X KX C ρ : Type}

/-! ## The state saved directly afterwards -/

/-- **The specification.** A state saved directly after setting back is the state that was restored. -/
def Live.KeepsState {D : Dataset σ α κ} (L : Live D) : Prop := ∀ s t, L.Used s → L.Used t → D.save (L.rewind (D.save s) t) = D.save s

/-- All slices in use are slices of the dataset, those of the generator and those of the attributes. -/
def LiveMem (c : Wds.Cfg C) (p : Wds.LdX C ρ × Option (List (Wds.Slice C) × List (Wds.Active C))) : Prop :=
  Wds.Mem c p.1 ∧ ∀ q, p.2 = some q → Wds.Mem c { p.1 with pending := q.1, active := q.2 }

theorem resume_mem (c : Wds.Cfg C) (k : Wds.LdState ρ) : Wds.Mem c (Wds.ldResume c k) := by
  have hf : ∀ (i : String × Nat) (s : Wds.Slice C), Wds.findSlice c.shards i = some s → s ∈ c.shards := by
    intro i s h
    exact (List.mem_filter.1 (List.mem_of_mem_getLast? h)).1
  constructor
  · intro s hs
    obtain ⟨i, _, h⟩ := List.mem_filterMap.1 hs
    exact hf i s h
  · intro b hb s p e
    obtain ⟨o, _, rfl⟩ := List.mem_map.1 hb
    cases o with
    | none => cases e
    | some a =>
      simp only [Option.bind_some, Option.map_eq_some_iff] at e
      obtain ⟨s', h1, h2⟩ := e
      obtain ⟨rfl, _⟩ := Prod.mk.inj h2
      exact hf _ _ h1

theorem init_mem (R : Wds.WRng ρ) (c : Wds.Cfg C) : Wds.Mem c (Wds.ldInit R c) :=
  ⟨fun s hs => (by cases hs), fun b hb s p e => by rw [(List.mem_replicate.1 hb).2] at e; cases e⟩

theorem liveMem_step {R : Wds.WRng ρ} {c : Wds.Cfg C} {p} (h : LiveMem c p) :
    (∀ a q, liveStep R c p = .yield a q → LiveMem c q) ∧ (∀ q, liveStep R c p = .skip q → LiveMem c q) ∧ (∀ q, liveStep R c p = .stop q → LiveMem c q) := by
  have key : ∀ (x : Wds.LdX C ρ) (o : Option (List (Wds.Slice C) × List (Wds.Active C))), Wds.Mem c x → (∀ q, o = some q → Wds.Mem c { x with pending := q.1, active := q.2 }) →
      ∀ st, st = (Wds.ldStep R c x).mapS (fun y => (y, o)) →
      (∀ a q, st = .yield a q → LiveMem c q) ∧ (∀ q, st = .skip q → LiveMem c q) ∧ (∀ q, st = .stop q → LiveMem c q) := by
    rintro x o hx ho st rfl
    have hs := hx.step (Wds.lstep R c x)
    have ho' : ∀ (y : Wds.LdX C ρ) q, o = some q → Wds.Mem c { y with pending := q.1, active := q.2 } := fun y q e => ho q e
    generalize Wds.ldStep R c x = st at hs
    obtain ⟨h1, h2, h3⟩ := hs
    cases st with
    | yield a y => exact ⟨by rintro _ _ ⟨⟩; exact ⟨(h1 a y rfl).1, ho' y⟩, (by intro q e; cases e), (by intro q e; cases e)⟩
    | skip y => exact ⟨(by intro _ _ e; cases e), by rintro _ ⟨⟩; exact ⟨h2 y rfl, ho' y⟩, (by intro q e; cases e)⟩
    | stop y => exact ⟨(by intro _ _ e; cases e), (by intro q e; cases e), by rintro _ ⟨⟩; exact ⟨(h3 y rfl).1, ho' y⟩⟩
    | raise => exact ⟨(by intro _ _ e; cases e), (by intro q e; cases e), (by intro q e; cases e)⟩
  obtain ⟨x, o⟩ := p
  obtain ⟨hx, ho⟩ := h
  cases o with
  | none => exact key x none hx (by intro q e; cases e) _ rfl
  | some q =>
    obtain ⟨pend, act⟩ := q
    cases hc : x.ctl with
    | pick => exact key x (some (pend, act)) hx ho _ (by simp only [liveStep, hc])
    | fresh => exact key { x with pending := pend, active := act } none (ho _ rfl) (by intro q e; cases e) _ (by simp only [liveStep, hc])
    | top => exact key { x with pending := pend, active := act } none (ho _ rfl) (by intro q e; cases e) _ (by simp only [liveStep, hc])

/-- What holds for all states of the source holds below a wrapper. -/
theorem wrap_inner_inv {D : Dataset σ α κ} {W : Wrapper Unit α β X KX} {I : σ → Prop} (hW : ∀ x x', W.act x ≠ .reset x')
    (hI : ∀ s, I s → (∀ a q, D.step s = .yield a q → I q) ∧ (∀ q, D.step s = .skip q → I q) ∧ (∀ q, D.step s = .stop q → I q))
    {p o} (ho : Obs (wrap D W).step p o) (hp : I p.1) : (∀ a q, o = .item a q → I q.1) ∧ ∀ q, o = .fin q → I q.1 := by
  have key : ∀ p, I p.1 → (∀ a q, (wrap D W).step p = .yield a q → I q.1) ∧ (∀ q, (wrap D W).step p = .skip q → I q.1) ∧
      (∀ q, (wrap D W).step p = .stop q → I q.1) := by
    rintro ⟨s, x⟩ hs
    have hD := hI s hs
    have hx := hW x
    unfold wrap
    dsimp only
    unfold wrapStep
    dsimp only
    cases hc : W.act x with
    | emit b x' => exact ⟨by rintro _ _ ⟨⟩; exact hs, (by intro q e; cases e), (by intro q e; cases e)⟩
    | halt x' => exact ⟨(by intro _ _ e; cases e), (by intro q e; cases e), by rintro _ ⟨⟩; exact hs⟩
    | tau x' => exact ⟨(by intro _ _ e; cases e), by rintro _ ⟨⟩; exact hs, (by intro q e; cases e)⟩
    | reset x' => exact absurd hc (hx x')
    | raise => exact ⟨(by intro _ _ e; cases e), (by intro q e; cases e), (by intro q e; cases e)⟩
    | pull i f g =>
      simp only [Source.single]
      generalize D.step s = st at hD
      cases st with
      | yield a y => exact ⟨(by intro _ _ e; cases e), by rintro _ ⟨⟩; exact hD.1 a y rfl, (by intro q e; cases e)⟩
      | skip y => exact ⟨(by intro _ _ e; cases e), by rintro _ ⟨⟩; exact hD.2.1 y rfl, (by intro q e; cases e)⟩
      | stop y => exact ⟨(by intro _ _ e; cases e), by rintro _ ⟨⟩; exact hD.2.2 y rfl, (by intro q e; cases e)⟩
      | raise => exact ⟨(by intro _ _ e; cases e), (by intro q e; cases e), (by intro q e; cases e)⟩
  induction ho with
  | item e => exact ⟨by rintro a q ⟨⟩; exact (key _ hp).1 _ _ e, by rintro q ⟨⟩⟩
  | fin e => exact ⟨by rintro a q ⟨⟩, by rintro q ⟨⟩; exact (key _ hp).2.2 _ e⟩
  | err => exact ⟨by rintro a q ⟨⟩, by rintro q ⟨⟩⟩
  | skip e _ ih => exact ih ((key _ hp).2.1 _ e)

theorem epochizeLive_noReset (len : Nat) (restore : List Key → Option α) (has : Bool) (x x' : EpoX α × Bool) : (epochizeLiveW len restore has).act x ≠ .reset x' := by
  have h : ∀ y y', (epochizeW len restore has).act y ≠ .reset y' := by
    rintro ⟨off, ctl⟩ y'
    cases ctl <;> simp only [epochizeW] <;> (try split) <;> intro h <;> cases h
  unfold epochizeLiveW
  dsimp only
  have := h x.1
  cases hc : (epochizeW len restore has).act x.1 <;> simp only [Act.mapX] <;> intro e <;> cases e
  exact this _ hc

theorem epochize_live_mem {R : Wds.WRng ρ} {c : Wds.Cfg C} {restore : List Key → Option (Smp C)} {length nw w : Nat} {p}
    (h : ((readerLive R c restore).epochize length nw w).Used p) : LiveMem c p.1 := by
  have hfresh : ∀ k : Wds.LdState ρ, LiveMem c (Wds.ldResume c k, (none : Option (List (Wds.Slice C) × List (Wds.Active C)))) :=
    fun k => ⟨resume_mem c k, (by intro q e; cases e)⟩
  induction h with
  | init => exact ⟨init_mem R c, (by intro q e; cases e)⟩
  | item _ ho ih =>
    exact (wrap_inner_inv (D := liveD R c restore) (I := LiveMem c) (epochizeLive_noReset _ _ _) (fun s hs => liveMem_step hs) ho ih).1 _ _ rfl
  | fin _ ho ih =>
    exact (wrap_inner_inv (D := liveD R c restore) (I := LiveMem c) (epochizeLive_noReset _ _ _) (fun s hs => liveMem_step hs) ho ih).2 _ rfl
  | resume _ _ => exact hfresh _
  | @rewind s t _ _ _ iht =>
    show LiveMem c (if t.2.2 then (_, _) else (_, _) : _ × _).1
    split
    · refine ⟨⟨iht.1.1, iht.1.2⟩, ?_⟩
      rintro q ⟨⟩
      have := resume_mem c ((liveD R c restore).save s.1)
      exact ⟨this.1, this.2⟩
    · exact hfresh _

theorem live_kept {R : Wds.WRng ρ} {c : Wds.Cfg C} {restore : List Key → Option (Smp C)} (hd : (c.shards.map (·.id)).Nodup) {s} (hs : LiveMem c s) (t) :
    (liveD R c restore).save ((readerLive R c restore).patch ((liveD R c restore).save s) t) = (liveD R c restore).save s ∧
    (liveD R c restore).save ((readerLive R c restore).rewind ((liveD R c restore).save s) t) = (liveD R c restore).save s := by
  have key : ∀ y : Wds.LdX C ρ, Wds.Mem c y →
      (liveD R c restore).save ((readerLive R c restore).patch (Wds.ldSave y) t) = Wds.ldSave y ∧
      (liveD R c restore).save ((readerLive R c restore).rewind (Wds.ldSave y) t) = Wds.ldSave y := by
    intro y hy
    have := Wds.resume_save hd hy
    constructor
    · simp only [liveD, readerLive, this]
      rfl
    · simp only [liveD, readerLive, this]
      rfl
  obtain ⟨x, o⟩ := s
  cases o with
  | none => exact key x hs.1
  | some q => exact key _ (hs.2 q rfl)

/-- **C94, the saved state**: also with virtual epochs, a state saved directly after setting back is the restored one. Saving, setting back and saving again loses nothing
as long as no sample is taken in between.
Missing: the states saved after further samples (`C94_violated_save`). -/
theorem C94_kept_partial (R : Wds.WRng ρ) (c : Wds.Cfg C) (restore : List Key → Option (Smp C)) (hd : (c.shards.map (·.id)).Nodup) (length nw w : Nat) :
    ((readerLive R c restore).epochize length nw w).KeepsState := by
  intro s t hs _
  have hm := live_kept (R := R) (restore := restore) hd (epochize_live_mem hs) t.1
  cases ht : t.2.2 with
  | true =>
    simp only [Live.epochize, ht, if_true]
    exact Prod.ext hm.1 rfl
  | false =>
    simp only [Live.epochize, ht, Bool.false_eq_true, if_false]
    exact Prod.ext hm.2 rfl

/-- `restore_state(None)`: the state saved directly afterwards is that of a dataset that was reset. -/
def Live.Forgets {D : Dataset σ α κ} (L : Live D) : Prop := ∀ p, D.save (L.forget p) = D.save (D.reset p)

/-- **C94 / C89, the saved state after `restore_state(None)`**: the reader, all wrappers and virtual epochs. -/
theorem C94_forgets (R : Wds.WRng ρ) (c : Wds.Cfg C) (restore : List Key → Option (Smp C)) :
    (readerLive R c restore).Forgets ∧
    (∀ {σ α β κ X KX : Type} (D : Dataset σ α κ) (L : Live D) (W : Wrapper Unit α β X KX), L.Forgets → (L.wrap W).Forgets) ∧
    (∀ {σ α κ : Type} (D : Dataset σ α κ) (L : Live D) (length nw w : Nat), L.Forgets → (L.epochize length nw w).Forgets ∧
      ∀ p, (epochizeLiveD D length nw w).save (L.epochizeReset p) = (epochizeLiveD D length nw w).save ((epochizeLiveD D length nw w).reset p)) := by
  refine ⟨fun p => rfl, ?_, ?_⟩
  · intro σ α β κ X KX D L W h p
    exact Prod.ext (h p.1) rfl
  · intro σ α κ D L length nw w h
    refine ⟨fun p => Prod.ext (h p.1) rfl, fun p => ?_⟩
    refine Prod.ext ?_ rfl
    show D.save (if p.2.2 then L.forget p.1 else D.reset p.1) = D.save (D.reset p.1)
    split
    · exact h p.1
    · rfl

/-! ## The iterator goes on -/

theorem equiv_of_same_step {D : Dataset σ α κ} {s t : σ} (e : D.step s = D.step t) : D.Equiv s t := by
  refine Dataset.Equiv.of_obs fun o => ?_
  have key : ∀ {s t : σ}, D.step s = D.step t → Obs D.step s o → Obs D.step t o := by
    intro s t e h
    cases h with
    | item h => exact .item (e ▸ h)
    | fin h => exact .fin (e ▸ h)
    | err h => exact .err (e ▸ h)
    | skip h h' => exact .skip (e ▸ h) h'
  exact ⟨key e, key e.symm⟩

theorem trace_item {D : Dataset σ α κ} {s s' : σ} {a : α} (e : D.step s = .yield a s') (evs : List (Ev α)) : D.Trace s (.item a :: evs) ↔ D.Trace s' evs := by
  constructor
  · intro h
    cases h with
    | item ho ht =>
      have := ho.det (.item e)
      cases this
      exact ht
  · exact fun h => .item (.item e) h

/-- What a reader delivers in its current pass, from a state in which it picks samples: `as`, and then it is in state `y`, where the pass is over. -/
inductive InPass (R : Wds.WRng ρ) (c : Wds.Cfg C) : Wds.LdX C ρ → List (Smp C) → Wds.LdX C ρ → Prop where
  | over {x} : x.ctl ≠ .pick → InPass R c x [] x
  | item {x a x' as y} : x.ctl = .pick → Wds.ldStep R c x = .yield a x' → InPass R c x' as y → InPass R c x (a :: as) y
  | skip {x x' as y} : x.ctl = .pick → Wds.ldStep R c x = .skip x' → InPass R c x' as y → InPass R c x as y

/-- **C94, what happens instead**: if a reader that repeats its shards (as for training) is set back below a running iterator, then the iterator delivers the rest `as` of its old pass, whatever was restored,
and then exactly what a reader delivers from the restored slices (with the random generator and the counters as they are then). -/
theorem C94_epochize_goes_on (R : Wds.WRng ρ) (c : Wds.Cfg C) (restore : List Key → Option (Smp C)) (k : Wds.LdState ρ) (x y : Wds.LdX C ρ) (as : List (Smp C))
    (o : Option (List (Wds.Slice C) × List (Wds.Active C)))
    (h : InPass R c { x with rng := k.rng, count := k.count, epoch := k.epoch, epochCount := k.epochCount } as y) (evs : List (Ev (Smp C))) :
    (liveD R c restore).Trace ((readerLive R c restore).patch k (x, o)) (as.map .item ++ evs) ↔
      (Wds.loaderD R c restore).Trace { y with pending := (Wds.ldResume c k).pending, active := (Wds.ldResume c k).active } evs := by
  rw [← liveD_eq R c restore]
  simp only [readerLive]
  generalize { x with rng := k.rng, count := k.count, epoch := k.epoch, epochCount := k.epochCount } = x at h
  generalize (Wds.ldResume c k).pending = pend
  generalize (Wds.ldResume c k).active = act
  induction h with
  | @over x hx =>
    have e : (liveD R c restore).step (x, some (pend, act)) = (liveD R c restore).step ({ x with pending := pend, active := act }, none) := by
      simp only [liveD, liveStep]
    simp only [List.map_nil, List.nil_append]
    exact equiv_of_same_step e evs
  | @item x a x' as y hx he _ ih =>
    have e : (liveD R c restore).step (x, some (pend, act)) = .yield a (x', some (pend, act)) := by
      simp only [liveD, liveStep, hx, he, Step.mapS]
    rw [← ih]
    exact trace_item e _
  | @skip x x' as y hx he _ ih =>
    have e : (liveD R c restore).step (x, some (pend, act)) = .skip (x', some (pend, act)) := by
      simp only [liveD, liveStep, hx, he, Step.mapS]
    rw [← ih]
    exact Dataset.Equiv.of_skip e _

/-! ## Which datasets can be set back, and how often it goes wrong -/

/-- **C94, virtual epochs**: a new dataset, and one that was just restored, can be set to any state. -/
theorem C94_epochize_new_partial {D : Dataset σ α κ} {L : Live D} (h : L.Fresh) (length nw w : Nat) (k k' : κ × Nat) :
    (L.epochize length nw w).rewind k (epochizeLiveD D length nw w).init = (epochizeLiveD D length nw w).resume k ∧
    (L.epochize length nw w).rewind k ((epochizeLiveD D length nw w).resume k') = (epochizeLiveD D length nw w).resume k :=
  ⟨C94_epochize_unused_partial h length nw w k _ rfl, C94_epochize_unused_partial h length nw w k _ rfl⟩

/-- **C94 violated (3).** Setting it back once more does not help: the iterator is still the old one. -/
theorem C94_violated_twice : ∃ s t, epoExL.Used s ∧ epoExL.Used t ∧
    ¬ epoEx.Equiv (epoExL.rewind (epoEx.save s) (epoExL.rewind (epoEx.save s) t)) (epoEx.resume (epoEx.save s)) := by
  have h1 : epoExL.Used _ := Live.Used.after (n := 40) (k := 1) rfl .init
  have h2 : epoExL.Used _ := Live.Used.after (n := 40) (k := 2) rfl .init
  exact ⟨_, _, h1, h2, Dataset.not_equiv (D := epoEx) 40 1 (by decide +kernel) (by decide +kernel)⟩

/-- see `InPass` -/
def passFrom (R : Wds.WRng ρ) (c : Wds.Cfg C) : Nat → Wds.LdX C ρ → Option (List (Smp C) × Wds.LdX C ρ)
  | 0, _ => none
  | n + 1, x =>
    match x.ctl with
    | .pick =>
      match Wds.ldStep R c x with
      | .yield a x' => (passFrom R c n x').map fun r => (a :: r.1, r.2)
      | .skip x' => passFrom R c n x'
      | _ => none
    | _ => some ([], x)

theorem passFrom_inPass {R : Wds.WRng ρ} {c : Wds.Cfg C} (n : Nat) : ∀ {x as y}, passFrom R c n x = some (as, y) → InPass R c x as y := by
  induction n with
  | zero => intro x as y h; cases h
  | succ n ih =>
    intro x as y h
    unfold passFrom at h
    cases hc : x.ctl with
    | pick =>
      rw [hc] at h
      dsimp only at h
      cases hs : Wds.ldStep R c x with
      | yield a x' =>
        rw [hs] at h
        simp only [Option.map_eq_some_iff] at h
        obtain ⟨r, h1, h2⟩ := h
        obtain ⟨rfl, rfl⟩ := Prod.mk.inj h2
        exact .item hc hs (ih h1)
      | skip x' => rw [hs] at h; exact .skip hc hs (ih h)
      | stop x' => rw [hs] at h; cases h
      | raise => rw [hs] at h; cases h
    | fresh => rw [hc] at h; cases h; exact .over (by rw [hc]; intro h; cases h)
    | top => rw [hc] at h; cases h; exact .over (by rw [hc]; intro h; cases h)

/-- A case for `C94_epochize_goes_on`: after two samples of 1, 2, 3, 4, 5, repeated, the rest of the pass is 3, 4, 5. -/
example : ∃ x y as, (Wds.loaderD Wds.exRng { againCfg with loop := true } liveEx.restoreSample).Paused false x ∧
    InPass Wds.exRng { againCfg with loop := true } x as y ∧ as.map (·.content) = [3, 4, 5] := by
  obtain ⟨x, hx⟩ : ∃ x, (Wds.loaderD Wds.exRng { againCfg with loop := true } liveEx.restoreSample).after 40 2
      (Wds.loaderD Wds.exRng { againCfg with loop := true } liveEx.restoreSample).init = some x := ⟨_, rfl⟩
  have e : ((some x).bind (passFrom Wds.exRng { againCfg with loop := true } 40)).map (fun r => r.1.map (·.content)) = some [3, 4, 5] := by
    rw [← hx]
    decide +kernel
  simp only [Option.bind_some, Option.map_eq_some_iff] at e
  obtain ⟨⟨as, y⟩, h1, h2⟩ := e
  exact ⟨x, y, as, Dataset.after_paused hx .init, passFrom_inPass 40 h1, h2⟩

end Verif.Stream
