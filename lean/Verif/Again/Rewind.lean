import Verif.Again.Props
import Verif.Wrap.LengthProps

/-!
# C94: restoring a loader that has been used (without worker processes)

Source: /repo src/megatron/energon/savable_loader.py:84-119 `SimpleSavableDatasetWrapper`, 912-931 `restore_state_rank` (allowed at any time without workers);
epochize_dataset.py:56-96, 125-132: `_active_iter` survives `restore_state`.

`SimpleSavableDatasetWrapper.__iter__` notices a restore (`_state_restored`) and makes a new iterator of the datasets, so the generators of all wrappers start anew with the
restored attributes. But the generator below an `EpochizeDataset` is kept in an attribute and goes on.
-/

namespace Verif.Stream

variable {ι σ α β κ X KX C ρ : Type}

/-- `rewind k s`: `restore_state` with the state `k` on a dataset in state `s`, then a new generator. `patch k s`: `restore_state`, and the generator in use goes on.
`forget s`: `restore_state(None)`, and the generator in use goes on. -/
structure Live (D : Dataset σ α κ) where
  rewind : κ → σ → σ
  patch : κ → σ → σ
  forget : σ → σ

/-- States in which user code can have control, with any number of restores of the running dataset. -/
inductive Live.Used {D : Dataset σ α κ} (L : Live D) : σ → Prop where
  | init : L.Used D.init
  | item {s a s'} : L.Used s → Obs D.step s (.item a s') → L.Used s'
  | fin {s s'} : L.Used s → Obs D.step s (.fin s') → L.Used s'
  | resume {s} : L.Used s → L.Used (D.resume (D.save s))
  | rewind {s t} : L.Used s → L.Used t → L.Used (L.rewind (D.save s) t)

/-- **The specification.** Restoring a state in a dataset that has been used gives what restoring it in a new one gives. -/
def Live.RewindsExactly {D : Dataset σ α κ} (L : Live D) : Prop :=
  ∀ s t, L.Used s → L.Used t → D.Equiv (L.rewind (D.save s) t) (D.resume (D.save s))

/-- **Its consequence.** Also after restores of the running dataset, saving and resuming in a new process goes on where the running one is. -/
def Live.SavesExactly {D : Dataset σ α κ} (L : Live D) : Prop := ∀ s, L.Used s → D.Equiv s (D.resume (D.save s))

/-! ## The model -/

/-- sample_loader.py:286-508: the generator of the reader works with its own references `active_shards`, `shards_order`, `shard_iters` to the lists in the attributes. If
`restore_state` replaces the attributes, the generator goes on with the old lists; the attributes (the second component) are read at the beginning of the next epoch (lines 307-313).
The random generator and the counters are read from the attributes each time. -/
def liveStep (R : Wds.WRng ρ) (c : Wds.Cfg C) (p : Wds.LdX C ρ × Option (List (Wds.Slice C) × List (Wds.Active C))) :
    Step (Wds.LdX C ρ × Option (List (Wds.Slice C) × List (Wds.Active C))) (Smp C) :=
  match p.2 with
  | none => (Wds.ldStep R c p.1).mapS fun x => (x, none)
  | some (pend, act) =>
    match p.1.ctl with
    | .pick => (Wds.ldStep R c p.1).mapS fun x => (x, some (pend, act))
    | _ => (Wds.ldStep R c { p.1 with pending := pend, active := act }).mapS fun x => (x, none)

/-- The reader with attributes and generator apart. `save_state` (sample_loader.py:586-653) reads the attributes. -/
def liveD (R : Wds.WRng ρ) (c : Wds.Cfg C) (restore : List Key → Option (Smp C)) :
    Dataset (Wds.LdX C ρ × Option (List (Wds.Slice C) × List (Wds.Active C))) (Smp C) (Wds.LdState ρ) :=
  { init := (Wds.ldInit R c, none)
    step := liveStep R c
    save := fun p => match p.2 with
      | none => Wds.ldSave p.1
      | some (pend, act) => Wds.ldSave { p.1 with pending := pend, active := act }
    resume := fun k => (Wds.ldResume c k, none)
    reset := fun p => ({ Wds.ldInit R c with rng := p.1.rng }, none)
    restoreSample := restore
    hasSamples := (Wds.loaderD R c restore).hasSamples }

/-- sample_loader.py:688-754 `restore_state` on a used reader: all attributes are replaced. -/
def readerLive (R : Wds.WRng ρ) (c : Wds.Cfg C) (restore : List Key → Option (Smp C)) : Live (liveD R c restore) :=
  { rewind := fun k _ => (Wds.ldResume c k, none)
    patch := fun k p =>
      ({ p.1 with rng := k.rng, count := k.count, epoch := k.epoch, epochCount := k.epochCount }, some ((Wds.ldResume c k).pending, (Wds.ldResume c k).active))
    forget := fun p => ({ p.1 with count := 0, epoch := 0, epochCount := 0 }, some ([], List.replicate c.parallel none)) }

/-- The wrappers other than `EpochizeDataset`: `restore_state` replaces all attributes (wrappers/base.py:105-111 and the `restore_state` methods, see
`Verif.Again.Model`), the new generator makes a new generator of the source. What a suspended generator of the wrapper does after a restore is not modelled (`patch`, `forget`). -/
def Live.wrap {D : Dataset σ α κ} (L : Live D) (W : Wrapper Unit α β X KX) : Live (Stream.wrap D W) :=
  { rewind := fun k p => (L.rewind k.1 p.1, W.resume k.2), patch := fun k p => (L.patch k.1 p.1, W.resume k.2)
    forget := fun p => (L.forget p.1, W.reset p.2) }

/-- `BlendDataset`, `ConcatDataset` -/
def Live.wrapMulti {D : Nat → Dataset σ α κ} (L : ∀ i, Live (D i)) (W : Wrapper Nat α β X KX) : Live (Stream.wrapMulti D W) :=
  { rewind := fun k p => (fun i => (L i).rewind (k.1 i) (p.1 i), W.resume k.2), patch := fun k p => (fun i => (L i).patch (k.1 i) (p.1 i), W.resume k.2)
    forget := fun p => (fun i => (L i).forget (p.1 i), W.reset p.2) }

/-- Change the wrapper states of an action. -/
def Act.mapX {Y : Type} (f : X → Y) : Act ι α β X → Act ι α β Y
  | .emit b x => .emit b (f x)
  | .halt x => .halt (f x)
  | .tau x => .tau (f x)
  | .pull i g h => .pull i (fun a => f (g a)) (f h)
  | .reset x => .reset (f x)
  | .raise => .raise

/-- epochize_dataset.py:64-96 with the attribute `_active_iter` (is it set?): set when a sample is needed for the first time (lines 90-92). -/
def epochizeLiveW (len : Nat) (restore : List Key → Option α) (has : Bool) : Wrapper Unit α α (EpoX α × Bool) Nat :=
  let E := epochizeW len restore has
  { init := (E.init, false)
    act := fun x => (E.act x.1).mapX fun y => (y, x.2 || (match x.1.ctl with | .start => decide (x.1.off < len) | _ => false))
    save := fun x => E.save x.1
    resume := fun k => (E.resume k, false)
    reset := fun x => (E.reset x.1, x.2)
    restoreSample := restore
    hasSamples := has }

/-- `EpochizeDataset` -/
def epochizeLiveD (D : Dataset σ α κ) (length nw w : Nat) : Dataset (σ × (EpoX α × Bool)) α (κ × Nat) :=
  wrap D (epochizeLiveW (localShare length nw w) D.restoreSample D.hasSamples)

/-- epochize_dataset.py:125-132 `restore_state` on a used object: the offset is set, `_active_iter` stays, so the generator of the source goes on. -/
def Live.epochize {D : Dataset σ α κ} (L : Live D) (length nw w : Nat) : Live (epochizeLiveD D length nw w) :=
  { rewind := fun k p => if p.2.2 then (L.patch k.1 p.1, (⟨k.2, .start⟩, true)) else (L.rewind k.1 p.1, (⟨k.2, .start⟩, false))
    patch := fun k p => (L.patch k.1 p.1, (⟨k.2, p.2.1.ctl⟩, p.2.2))
    forget := fun p => (L.forget p.1, (⟨0, p.2.1.ctl⟩, p.2.2)) }

/-- epochize_dataset.py:125-128 `restore_state(None)` on a used object, then a new generator of the `EpochizeDataset`. -/
def Live.epochizeReset {D : Dataset σ α κ} (L : Live D) (p : σ × (EpoX α × Bool)) : σ × (EpoX α × Bool) :=
  (if p.2.2 then L.forget p.1 else D.reset p.1, (⟨0, .start⟩, p.2.2))

/-! ## Where it holds -/

/-- Nothing of the used dataset is left. -/
def Live.Fresh {D : Dataset σ α κ} (L : Live D) : Prop := ∀ k s, L.rewind k s = D.resume k

theorem Live.Fresh.exact {D : Dataset σ α κ} {L : Live D} (h : L.Fresh) : L.RewindsExactly := fun s t _ _ => by rw [h]; exact .refl _

theorem Live.Fresh.used {D : Dataset σ α κ} {L : Live D} (h : L.Fresh) {s : σ} (hs : L.Used s) : D.Paused false s := by
  induction hs with
  | init => exact .init
  | item _ ho ih => exact .item ih ho
  | fin _ ho ih => exact .fin ih ho
  | resume _ ih => exact .resume ih
  | rewind _ _ ih _ => rw [h]; exact .resume ih

/-- Then restores of the running dataset change nothing in what is known about resuming. -/
theorem Live.Fresh.saves {D : Dataset σ α κ} {L : Live D} (h : L.Fresh) (hD : D.ResumesExactly) : L.SavesExactly := fun s hs => hD s (h.used hs)

theorem readerLive_fresh (R : Wds.WRng ρ) (c : Wds.Cfg C) (restore : List Key → Option (Smp C)) : (readerLive R c restore).Fresh := fun _ _ => rfl

theorem Live.Fresh.wrap {D : Dataset σ α κ} {L : Live D} (h : L.Fresh) (W : Wrapper Unit α β X KX) : (L.wrap W).Fresh := fun k s => by
  simp only [Live.wrap, Stream.wrap, h k.1 s.1]

theorem Live.Fresh.wrapMulti {D : Nat → Dataset σ α κ} {L : ∀ i, Live (D i)} (h : ∀ i, (L i).Fresh) (W : Wrapper Nat α β X KX) : (Live.wrapMulti L W).Fresh := fun k s => by
  simp only [Live.wrapMulti, Stream.wrapMulti]
  congr 1
  funext i
  exact h i _ _

/-- Datasets whose states correspond step by step show the same. -/
theorem trace_embed {σ' κ' : Type} {D : Dataset σ α κ} {D' : Dataset σ' α κ'} {f : σ → σ'} (h : ∀ s, D'.step (f s) = (D.step s).mapS f) (s : σ) (evs : List (Ev α)) :
    D'.Trace (f s) evs ↔ D.Trace s evs := by
  have o1 : ∀ {s o}, Obs D.step s o → match o with
      | .item a t => Obs D'.step (f s) (.item a (f t))
      | .fin t => Obs D'.step (f s) (.fin (f t))
      | .err => Obs D'.step (f s) .err := by
    intro s o ho
    induction ho with
    | item e => exact .item (by rw [h, e]; rfl)
    | fin e => exact .fin (by rw [h, e]; rfl)
    | err e => exact .err (by rw [h, e]; rfl)
    | @skip s s' o e _ ih =>
      have e' : D'.step (f s) = .skip (f s') := by rw [h, e]; rfl
      cases o <;> exact .skip e' ih
  have o2 : ∀ {s' o}, Obs D'.step s' o → ∀ s, s' = f s → match o with
      | .item a t => ∃ t', t = f t' ∧ Obs D.step s (.item a t')
      | .fin t => ∃ t', t = f t' ∧ Obs D.step s (.fin t')
      | .err => Obs D.step s .err := by
    intro s' o ho
    induction ho with
    | @item s' a t e =>
      rintro s rfl
      rw [h] at e
      cases hs : D.step s <;> rw [hs] at e <;> cases e
      exact ⟨_, rfl, .item hs⟩
    | @fin s' t e =>
      rintro s rfl
      rw [h] at e
      cases hs : D.step s <;> rw [hs] at e <;> cases e
      exact ⟨_, rfl, .fin hs⟩
    | @err s' e =>
      rintro s rfl
      rw [h] at e
      cases hs : D.step s <;> rw [hs] at e <;> cases e
      exact .err hs
    | @skip s' t o e _ ih =>
      rintro s rfl
      rw [h] at e
      cases hs : D.step s <;> rw [hs] at e <;> cases e
      have := ih _ rfl
      cases o with
      | item a u => obtain ⟨t', h1, h2⟩ := this; exact ⟨t', h1, .skip hs h2⟩
      | fin u => obtain ⟨t', h1, h2⟩ := this; exact ⟨t', h1, .skip hs h2⟩
      | err => exact .skip hs this
  constructor
  · intro ht
    generalize he : f s = s' at ht
    induction ht generalizing s with
    | nil => exact .nil
    | item ho _ ih =>
      obtain ⟨t', h1, h2⟩ := o2 ho s he.symm
      exact .item h2 (ih t' h1.symm)
    | fin ho _ ih =>
      obtain ⟨t', h1, h2⟩ := o2 ho s he.symm
      exact .fin h2 (ih t' h1.symm)
    | err ho => exact .err (o2 ho s he.symm)
  · intro ht
    induction ht with
    | nil => exact .nil
    | item ho _ ih => exact .item (o1 ho) ih
    | fin ho _ ih => exact .fin (o1 ho) ih
    | err ho => exact .err (o1 ho)

/-- As long as it is used without restores, the reader with attributes and generator apart is the reader. -/
theorem liveD_eq (R : Wds.WRng ρ) (c : Wds.Cfg C) (restore : List Key → Option (Smp C)) (x : Wds.LdX C ρ) (evs : List (Ev (Smp C))) :
    (liveD R c restore).Trace (x, none) evs ↔ (Wds.loaderD R c restore).Trace x evs :=
  trace_embed (D := Wds.loaderD R c restore) (D' := liveD R c restore) (f := fun x => (x, none)) (fun _ => rfl) x evs

/-- Every state of the reader in use, if no restore happened below a running generator, is one of the reader. -/
theorem live_paused (R : Wds.WRng ρ) (c : Wds.Cfg C) (restore : List Key → Option (Smp C)) {p} (h : (liveD R c restore).Paused false p) :
    p.2 = none ∧ (Wds.loaderD R c restore).Paused false p.1 := by
  have key : ∀ {p o}, Obs (liveD R c restore).step p o → p.2 = none → match o with
      | .item a q => q.2 = none ∧ Obs (Wds.ldStep R c) p.1 (.item a q.1)
      | .fin q => q.2 = none ∧ Obs (Wds.ldStep R c) p.1 (.fin q.1)
      | .err => True := by
    intro p o ho
    induction ho with
    | @item p a q e =>
      obtain ⟨x, y⟩ := p
      rintro rfl
      simp only [liveD, liveStep] at e
      cases hs : Wds.ldStep R c x <;> rw [hs] at e <;> cases e
      exact ⟨rfl, .item hs⟩
    | @fin p q e =>
      obtain ⟨x, y⟩ := p
      rintro rfl
      simp only [liveD, liveStep] at e
      cases hs : Wds.ldStep R c x <;> rw [hs] at e <;> cases e
      exact ⟨rfl, .fin hs⟩
    | err => intro _; trivial
    | @skip p q o e _ ih =>
      obtain ⟨x, y⟩ := p
      rintro rfl
      simp only [liveD, liveStep] at e
      cases hs : Wds.ldStep R c x <;> rw [hs] at e <;> cases e
      have := ih rfl
      cases o with
      | item a u => exact ⟨this.1, .skip hs this.2⟩
      | fin u => exact ⟨this.1, .skip hs this.2⟩
      | err => trivial
  induction h with
  | init => exact ⟨rfl, .init⟩
  | item _ ho ih => have := key ho ih.1; exact ⟨this.1, .item ih.2 this.2⟩
  | fin _ ho ih => have := key ho ih.1; exact ⟨this.1, .fin ih.2 this.2⟩
  | @resume s _ ih =>
    obtain ⟨x, y⟩ := s
    obtain ⟨rfl, h2⟩ := ih
    exact ⟨rfl, .resume h2⟩
  | reset hr => cases hr

/-- **C94, the reader** (also with any stack of wrappers without virtual epochs, `C94_wrapped_partial`): it can be set back at any time, and the states saved afterwards are right. -/
theorem C94_reader (R : Wds.WRng ρ) (c : Wds.Cfg C) (restore : List Key → Option (Smp C)) (hd : (c.shards.map (·.id)).Nodup) :
    (readerLive R c restore).RewindsExactly ∧ (readerLive R c restore).SavesExactly := by
  refine ⟨(readerLive_fresh R c restore).exact, (readerLive_fresh R c restore).saves ?_⟩
  intro p hp
  obtain ⟨h1, h2⟩ := live_paused R c restore hp
  obtain ⟨x, y⟩ := p
  cases h1
  intro evs
  have := Wds.C33_resumes (R := R) (restore := restore) hd false x h2 evs
  exact (liveD_eq R c restore x evs).trans (this.trans (liveD_eq R c restore _ evs).symm)

/-- **C94, wrappers** other than `EpochizeDataset`: what holds for the source holds for the wrapper. -/
theorem C94_wrapped_partial {D : Dataset σ α κ} {L : Live D} (h : L.Fresh) (W : Wrapper Unit α β X KX) (hW : (wrap D W).ResumesExactly) :
    (L.wrap W).Fresh ∧ (L.wrap W).RewindsExactly ∧ (L.wrap W).SavesExactly :=
  ⟨h.wrap W, (h.wrap W).exact, (h.wrap W).saves hW⟩

/-- **C94, virtual epochs**: setting back works before the first sample was asked for. -/
theorem C94_epochize_unused_partial {D : Dataset σ α κ} {L : Live D} (h : L.Fresh) (length nw w : Nat) (k : κ × Nat) (p : σ × (EpoX α × Bool)) (hp : p.2.2 = false) :
    (L.epochize length nw w).rewind k p = (epochizeLiveD D length nw w).resume k := by
  simp only [Live.epochize, hp, Bool.false_eq_true, if_false, h k.1 p.1]
  rfl

/-! ## Where it does not hold -/

/-- The reader of the examples (1, 2, 3, 4, 5), live. -/
def liveEx := liveD Wds.exRng againCfg (fun k => match k with | [.num i] => some ⟨i, k⟩ | _ => none)

/-- see `liveEx` -/
def liveExL : Live liveEx := readerLive _ _ _

/-- Virtual epochs of 3 samples. -/
def epoEx := epochizeLiveD liveEx 3 0 0

/-- see `epoEx` -/
def epoExL : Live epoEx := liveExL.epochize 3 0 0

theorem Live.Used.run {D : Dataset σ α κ} {L : Live D} {s s' : σ} {evs : List (Ev α)} (h : D.Run s evs s') (hs : L.Used s) : L.Used s' := by
  induction h with
  | nil => exact hs
  | item ho _ ih => exact ih (.item hs ho)
  | fin ho _ ih => exact ih (.fin hs ho)

theorem Live.Used.after {D : Dataset σ α κ} {L : Live D} {n k : Nat} {s s' : σ} (h : D.after n k s = some s') (hs : L.Used s) : L.Used s' := by
  obtain ⟨evs, hr⟩ := Dataset.after_run h
  exact hs.run hr

/-- The full property. -/
def C94_statement {D : Dataset σ α κ} (L : Live D) : Prop := L.RewindsExactly → ∀ length nw w, (L.epochize length nw w).RewindsExactly

/-- **C94 violated.** Virtual epochs of 3 samples over 1, 2, 3, 4, 5: a state is saved after the first sample and restored after the second one. A new loader delivers 2 next, this one 3. -/
theorem C94_violated : liveExL.RewindsExactly ∧ ¬ C94_statement liveExL := by
  refine ⟨(C94_reader _ _ _ (by decide)).1, fun h => ?_⟩
  have h1 : epoExL.Used _ := Live.Used.after (n := 40) (k := 1) rfl .init
  have h2 : epoExL.Used _ := Live.Used.after (n := 40) (k := 2) rfl .init
  exact Dataset.not_equiv (D := epoEx) 40 1 (by decide +kernel) (by decide +kernel) (h (C94_reader _ _ _ (by decide)).1 3 0 0 _ _ h1 h2)

/-- **C94 violated (2).** The states saved by the running loader afterwards are wrong as well: it has delivered 3 and goes on with 4, the saved state goes on with 2. -/
theorem C94_violated_save : liveExL.SavesExactly ∧ ¬ epoExL.SavesExactly := by
  refine ⟨(C94_reader _ _ _ (by decide)).2, fun h => ?_⟩
  have h1 : epoExL.Used _ := Live.Used.after (n := 40) (k := 1) rfl .init
  have h2 : epoExL.Used _ := Live.Used.after (n := 40) (k := 2) rfl .init
  have h3 : epoExL.Used _ := Live.Used.after (n := 40) (k := 1) rfl (Live.Used.rewind h1 h2)
  exact Dataset.not_equiv (D := epoEx) 40 1 (by decide +kernel) (by decide +kernel) (h _ h3)

/-- **C89 violated (virtual epochs).** Also `restore_state(None)` does not set virtual epochs back: after 1 and 2 the next sample is 3, while a new dataset begins with 1. (Without a limit on top
of the virtual epochs, as in the loaders, `restore_state(None)` is only called by the user.) -/
theorem C89_violated_epochize : ¬ ∀ p, epoEx.Paused false p → epoEx.Equiv (liveExL.epochizeReset p) epoEx.init := by
  intro h
  have hp : epoEx.Paused false _ := Dataset.after_paused (n := 40) (k := 2) rfl .init
  exact Dataset.not_equiv (D := epoEx) 40 1 (by decide +kernel) (by decide +kernel) (h _ hp)

/-- The hypotheses of the positive theorems are met: a filter on the reader can be set back. -/
example : (liveExL.wrap (loopW (filterBody fun _ a => some (a.content % 2 = 0)) liveEx.restoreSample liveEx.hasSamples)).RewindsExactly :=
  ((readerLive_fresh _ _ _).wrap _).exact

end Verif.Stream
