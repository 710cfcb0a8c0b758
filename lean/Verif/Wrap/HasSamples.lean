import Verif.Stream.Ends
import Verif.Stream.Multi
import Verif.Wrap.SimpleModel
import Verif.Wrap.LengthModel
import Verif.Wrap.BlendModel
import Verif.Wrap.BatchModel
import Verif.Wrap.BatchGenModel
import Verif.Wrap.GroupModel
import Verif.Wrap.PackModel
import Verif.Wrap.MapGenModel
import Verif.Wrap.IterMapModel
import Verif.Wrap.ShuffleModel
import Verif.Wds.LoaderProps
import Verif.Loader.PlainModel
import Verif.Stream.Example

/-!
# C88: a worker is said to have no samples only if it has none

`worker_has_samples` decides which parts of a blended dataset are left out for a worker (blend_dataset.py:81-86) and whether a dataset can be
repeated (repeat_dataset.py:60). If it is wrong, samples are silently missing.
-/

namespace Verif.Stream

variable {σ κ α β C C' X KX ρ K : Type}

/-! ## Specification -/

/-- If `worker_has_samples` is `False`, then no sample is ever delivered: neither from the beginning, nor after any number of ends of passes, of saving and restoring,
of `restore_state(None)`. -/
def Dataset.HonestlyEmpty (D : Dataset σ α κ) : Prop := D.hasSamples = false → ∀ a, ¬ D.Yields true a

/-! ## Wrappers -/

/-- The action delivers nothing, and `E` is kept. -/
def Act.Barren {ι : Type} (Y : ι → α → Prop) (E : X → Prop) : Act ι α β X → Prop
  | .emit _ _ => False
  | .halt x => E x
  | .tau x => E x
  | .reset x => E x
  | .pull i f g => (∀ a, Y i a → E (f a)) ∧ E g
  | .raise => True

theorem wrap_barren {D : Dataset σ α κ} {W : Wrapper Unit α β X KX} (E : X → Prop) (hi : E W.init) (hres : ∀ x, E x → E (W.resume (W.save x)))
    (hrst : ∀ x, E x → E (W.reset x)) (h : ∀ x, E x → (W.act x).Barren (fun _ => D.Yields true) E) (b : β) : ¬ (wrap D W).Yields true b := by
  have H : WInv (Source.single D) W (D.Paused true) E E :=
    { resume_to := fun _ h => h
      emit := fun x b x' hx ha => by have := h x hx; rw [ha] at this; exact this.elim
      halt := fun x x' hx ha => by have := h x hx; rw [ha] at this; exact this
      tau := fun x x' hx ha => by have := h x hx; rw [ha] at this; exact this
      reset := fun x x' hx ha => by have := h x hx; rw [ha] at this; exact this
      resetP := fun x x' s _ _ hs => .reset rfl hs
      pullItem := fun x i f g hx ha s a s' hs ho => by
        have := h x hx
        rw [ha] at this
        exact ⟨this.1 a ⟨s, s', hs, ho⟩, .item hs ho⟩
      pullFin := fun x i f g hx ha s s' hs ho => by
        have := h x hx
        rw [ha] at this
        exact ⟨this.2, .fin hs ho⟩ }
  rintro ⟨⟨s, x⟩, p, hp, ho⟩
  obtain ⟨h1, h2⟩ := wrap_paused H hi hres (fun _ => hrst) hp
  refine WObs.emits (Z := fun _ => False) H ?_ (wrap_obs.1 ho) h1 h2
  intro x b x' hx ha
  have := h x hx
  rw [ha] at this
  exact this

theorem wrapMulti_barren {D : Nat → Dataset σ α κ} {W : Wrapper Nat α β X KX} (hr : W.NoReset) (E : X → Prop) (hi : E W.init)
    (hres : ∀ x, E x → E (W.resume (W.save x)))
    (hrst : ∀ x, E x → E (W.reset x)) (h : ∀ x, E x → (W.act x).Barren (fun i => (D i).Yields true) E) (b : β) :
    ¬ (wrapMulti D W).Yields true b := by
  have H : WInv (Source.multi D) W (fun S => ∀ j, (D j).Paused true (S j)) E E := by
    refine WInv.mkMulti hr (fun _ h => h) ?_ ?_ ?_ ?_ ?_
    · intro x b x' hx ha; have := h x hx; rw [ha] at this; exact this.elim
    · intro x x' hx ha; have := h x hx; rw [ha] at this; exact this
    · intro x x' hx ha; have := h x hx; rw [ha] at this; exact this
    · intro x i f g hx ha a hy; have := h x hx; rw [ha] at this; exact this.1 a hy
    · intro x i f g hx ha; have := h x hx; rw [ha] at this; exact this.2
  rintro ⟨⟨s, x⟩, p, hp, ho⟩
  obtain ⟨h1, h2⟩ := wrapMulti_paused H hi hres (fun _ => hrst) hp
  refine WObs.emits (Z := fun _ => False) H ?_ (wrapMulti_obs.1 ho) h1 h2
  intro x b x' hx ha
  have := h x hx
  rw [ha] at this
  exact this

variable {D : Dataset σ (Smp C) κ}

theorem loop_barren {D : Dataset σ α κ} {body : Nat → α → LoopRes β} {restore : List Key → Option β} {has : Bool}
    (hn : ∀ a, ¬ D.Yields true a) (b : β) : ¬ (wrap D (loopW body restore has)).Yields true b := by
  refine wrap_barren (fun x => x.ctl = .loop ∨ x.ctl = .done) (.inl rfl) (fun _ _ => .inl rfl) (fun _ _ => .inl rfl) ?_ b
  rintro ⟨i, c⟩ (h | h) <;> simp only at h <;> subst h
  · exact ⟨fun a ha => (hn a ha).elim, .inr rfl⟩
  · exact .inl rfl

/-- **C88.** FilterDataset -/
theorem C88_filter (p : FilterFn C) (h : D.HonestlyEmpty) : (filterD D p).HonestlyEmpty := fun e => loop_barren (h e)

/-- **C88.** MapDataset -/
theorem C88_map (f : MapFn C C') (st : Bool) (h : D.HonestlyEmpty) : (mapD D f st).HonestlyEmpty := fun e => loop_barren (h e)

/-- **C88.** LogSampleDataset -/
theorem C88_log (h : D.HonestlyEmpty) : (logD D).HonestlyEmpty := fun e => loop_barren (h e)

/-- **C88.** GcDataset -/
theorem C88_gc (h : D.HonestlyEmpty) : (gcD D).HonestlyEmpty := by
  intro e b
  unfold gcD
  refine wrap_barren (fun x => x.ctl = .loop ∨ x.ctl = .done) (.inl rfl) (fun _ _ => .inl rfl) (fun _ _ => .inl rfl) ?_ b
  rintro ⟨i, c⟩ (hc | hc) <;> simp only at hc <;> subst hc
  · exact ⟨fun a ha => (h e a ha).elim, .inr rfl⟩
  · exact .inl rfl

/-- **C88.** MapDataset with a generator function -/
theorem C88_map_generator (f : GenFn C C') (st : Bool) (h : D.HonestlyEmpty) : (mapGenD D f st).HonestlyEmpty := by
  intro e b
  refine wrap_barren (fun x => x.gen = none ∧ (x.ctl = .start ∨ x.ctl = .loop ∨ x.ctl = .done)) ⟨rfl, .inl rfl⟩ (fun x hx => ⟨hx.1, .inl rfl⟩)
    (fun _ _ => ⟨rfl, .inl rfl⟩) ?_ b
  rintro ⟨i, g, c⟩ ⟨hg, hc | hc | hc⟩ <;> simp only at hg hc <;> subst hg <;> subst hc
  · exact ⟨rfl, .inr (.inl rfl)⟩
  · exact ⟨fun a ha => (h e a ha).elim, rfl, .inr (.inr rfl)⟩
  · exact ⟨rfl, .inl rfl⟩

/-- **C88.** IterMapDataset (with a function that yields samples for each sample) -/
theorem C88_iter_map (g : IterFn C C') (st : Bool) (h : D.HonestlyEmpty) : (iterMapD D g st).HonestlyEmpty := by
  intro e b
  refine wrap_barren (fun x => x.ctl = .begin ∨ (∃ n, x.ctl = .pulling n) ∨ x.ctl = .done) (.inl rfl) (fun x hx => .inl rfl)
    (fun _ _ => .inl rfl) ?_ b
  rintro ⟨i, k, t, c⟩ (hc | ⟨n, hc⟩ | hc) <;> simp only at hc <;> subst hc
  · exact .inr (.inl ⟨_, rfl⟩)
  · exact ⟨fun a ha => (h e a ha).elim, .inr (.inr rfl)⟩
  · exact .inl rfl

/-- **C88.** BatchDataset -/
theorem C88_batch (bs : Nat) (dl : Bool) (f : BatchFn C C') (h : D.HonestlyEmpty) : (batchD D bs dl f).HonestlyEmpty := by
  intro e b
  refine wrap_barren (fun x => x.batch = [] ∧ (x.ctl = .loop ∨ x.ctl = .done)) ⟨rfl, .inl rfl⟩ (fun x hx => ⟨rfl, .inl rfl⟩)
    (fun _ _ => ⟨rfl, .inl rfl⟩) ?_ b
  rintro ⟨i, bt, ks, c⟩ ⟨hb, hc | hc⟩ <;> simp only at hb hc <;> subst hb <;> subst hc
  · refine ⟨fun a ha => (h e a ha).elim, ?_⟩
    simp
  · exact ⟨rfl, .inl rfl⟩

/-- **C88.** BatchDataset with a generator function -/
theorem C88_batch_generator (bs : Nat) (dl : Bool) (f : FinalFn C C') (h : D.HonestlyEmpty) : (batchGenD D bs dl f).HonestlyEmpty := by
  intro e b
  refine wrap_barren (fun x => x.off = none ∧ x.batch = [] ∧ (x.ctl = .start ∨ x.ctl = .loop ∨ x.ctl = .done)) ⟨rfl, rfl, .inl rfl⟩
    (fun x hx => ⟨by simp only [batchGenW, hx.1, Option.map_none], rfl, .inl rfl⟩)
    (fun _ _ => ⟨rfl, rfl, .inl rfl⟩) ?_ b
  rintro ⟨i, o, bt, ks, c⟩ ⟨ho, hb, hc | hc | hc⟩ <;> simp only at ho hb hc <;> subst ho <;> subst hb <;> subst hc
  · exact ⟨rfl, rfl, .inr (.inl rfl)⟩
  · refine ⟨fun a ha => (h e a ha).elim, rfl, rfl, ?_⟩
    simp
  · exact ⟨rfl, rfl, .inl rfl⟩

/-- **C88.** ShuffleBufferDataset -/
theorem C88_shuffle (R : Rng ρ) (size : Nat) (h : D.HonestlyEmpty) : (shuffleD D R size).HonestlyEmpty := by
  intro e b
  refine wrap_barren (fun x => x.buf = []) rfl (fun x hx => ?_) (fun _ _ => rfl) ?_ b
  · have hx' : x.buf = [] := hx
    simp [shuffleW, hx']
  · rintro ⟨bf, g, c⟩ hb
    simp only at hb
    subst hb
    have hpop : ∀ c, (shufPop R (⟨[], g, c⟩ : ShufX ρ C)) = .raise := by
      intro c
      simp [shufPop]
    cases c with
    | fill =>
      simp only [shuffleW]
      split
      · rw [hpop]; trivial
      · exact ⟨fun a ha => (h e a ha).elim, rfl⟩
    | drain => simp [shuffleW, Act.Barren]
    | dead => trivial

/-- **C88.** GroupBatchDataset -/
theorem C88_group [DecidableEq K] (fixed : Option Nat) (key : GroupFn C K) (f : BatchFn C C') (dl : Bool) (h : D.HonestlyEmpty) :
    (groupD D fixed key f dl).HonestlyEmpty := by
  intro e b
  have hget : ∀ (k : K) (bk : Buckets K (Smp C)), (∀ q ∈ bk, q.2.2 = []) → ∀ n a l, bucketGet k bk ≠ some (n, a :: l) := by
    intro k bk
    induction bk with
    | nil => intro _ n a l hh; simp [bucketGet] at hh
    | cons q bk ih =>
      intro hq n a l hh
      obtain ⟨k', n', l'⟩ := q
      have h1 : l' = [] := hq _ (List.mem_cons_self ..)
      have h2 := ih (fun q hm => hq q (List.mem_cons_of_mem _ hm)) n a l
      simp only [bucketGet] at hh h2
      split at hh
      · simp [h1] at hh
      · exact h2 hh
  refine wrap_barren (fun x => (∀ q ∈ x.buckets, q.2.2 = []) ∧ (x.ctl = .loop ∨ ∃ ks, x.ctl = .final ks)) ⟨by simp [groupW], .inl rfl⟩
    (fun x hx => ⟨?_, .inl rfl⟩) (fun _ _ => ⟨by simp [groupW], .inl rfl⟩) ?_ b
  · intro q hq
    simp only [groupW, List.map_map, List.mem_map] at hq
    obtain ⟨q', _, rfl⟩ := hq
    rfl
  · rintro ⟨gi, bi, bk, c⟩ ⟨hb, hc | ⟨ks, hc⟩⟩ <;> simp only at hb hc <;> subst hc
    · exact ⟨fun a ha => (h e a ha).elim, hb, .inr ⟨_, rfl⟩⟩
    · cases ks with
      | nil => exact ⟨by simp, .inl rfl⟩
      | cons k ks =>
        simp only [groupW]
        split
        · rename_i n a l hg
          exact (hget k bk hb n a l hg).elim
        · exact ⟨hb, .inr ⟨_, rfl⟩⟩

/-- **C88.** PackingDataset -/
theorem C88_pack (size : Nat) (pre : PreFn C) (gen : Bool) (f : FinalFn C C') (h : D.HonestlyEmpty) : (packD D size pre gen f).HonestlyEmpty := by
  intro e b
  have hpre : ∀ (x : PackX C C') next, x.rb = [] → x.pb = [] → prePack pre x next = .tau { x with ctl := next } := by
    intro x next h1 h2
    simp [prePack, h1, h2]
  refine wrap_barren (fun x => x.rb = [] ∧ x.pb = [] ∧ x.lens = [] ∧
    ((∃ r, x.ctl = .check r) ∨ (∃ r, x.ctl = .fill r) ∨ x.ctl = .ended ∨ x.ctl = .drain)) ⟨rfl, rfl, rfl, .inl ⟨_, rfl⟩⟩
    (fun x hx => ?_) (fun _ _ => ⟨rfl, rfl, rfl, .inl ⟨_, rfl⟩⟩) ?_ b
  · simp [packW, hx.1, hx.2.1, hx.2.2.1]
  · rintro ⟨rb, pb, ls, pi, fi, c⟩ ⟨h1, h2, h3, ⟨r, hc⟩ | ⟨r, hc⟩ | hc | hc⟩ <;> simp only at h1 h2 h3 hc <;> subst h1 <;> subst h2 <;> subst h3 <;> subst hc
    · exact ⟨rfl, rfl, rfl, .inr (.inl ⟨r, by simp⟩)⟩
    · simp only [packW]
      split
      · exact ⟨fun a ha => (h e a ha).elim, rfl, rfl, rfl, .inr (.inr (.inl rfl))⟩
      · split
        · trivial
        · split
          · trivial
          · rw [hpre _ _ rfl rfl]
            exact ⟨rfl, rfl, rfl, .inl ⟨_, rfl⟩⟩
    · simp only [packW]
      rw [hpre _ _ rfl rfl]
      exact ⟨rfl, rfl, rfl, .inr (.inr (.inr rfl))⟩
    · exact ⟨rfl, rfl, rfl, .inl ⟨_, rfl⟩⟩

/-- **C88.** LimitDataset, also if the limit is 0 -/
theorem C88_limit {D : Dataset σ α κ} (length nw w : Nat) (ra : Bool) (h : D.HonestlyEmpty) : (limitD D length nw w ra).HonestlyEmpty := by
  intro e b
  have e' : D.hasSamples = false ∨ length = 0 := by
    have : (D.hasSamples && decide (0 < length)) = false := e
    rw [Bool.and_eq_false_iff] at this
    simpa using this
  rcases e' with e' | e'
  · refine wrap_barren (fun x => ∀ a, x.ctl ≠ .got a) (fun a ha => (by cases ha)) (fun _ _ a ha => (by cases ha)) (fun _ _ a ha => (by cases ha)) ?_ b
    rintro ⟨o, c⟩ hc
    cases c with
    | start =>
      simp only [limitW]
      split
      · intro a ha; cases ha
      · intro a ha; cases ha
    | loop => exact ⟨fun a ha => (h e' a ha).elim, fun a ha => (by cases ha)⟩
    | got a => exact (hc a rfl).elim
    | finish =>
      intro a ha
      cases ra <;> cases ha
    | again => intro a ha; cases ha
    | done => intro a ha; cases ha
  · subst e'
    have e0 : localShare 0 nw w = 0 := by simp [localShare]
    unfold limitD
    rw [e0]
    refine wrap_barren (fun _ => True) trivial (fun _ _ => trivial) (fun _ _ => trivial) ?_ b
    rintro ⟨o, c⟩ -
    cases c <;> simp [limitW, Act.Barren]

/-- **C88.** EpochizeDataset -/
theorem C88_epochize {D : Dataset σ α κ} (length nw w : Nat) (h : D.HonestlyEmpty) : (epochizeD D length nw w).HonestlyEmpty := by
  intro e b
  refine wrap_barren (fun x => ∀ a i, x.ctl ≠ .got a i) (fun a i ha => (by cases ha)) (fun _ _ a i ha => (by cases ha))
    (fun _ _ a i ha => (by cases ha)) ?_ b
  rintro ⟨o, c⟩ hc
  cases c with
  | start =>
    simp only [epochizeW]
    split
    · intro a i ha; cases ha
    · intro a i ha; cases ha
  | next i =>
    simp only [epochizeW]
    split
    · intro a i ha; cases ha
    · intro a i ha; cases ha
  | pulling i => exact ⟨fun a ha => (h e a ha).elim, fun a i ha => (by cases ha)⟩
  | got a i => exact (hc a i rfl).elim

/-- **C88.** RepeatDataset -/
theorem C88_repeat {D : Dataset σ α κ} (reps : Option Nat) (h : D.HonestlyEmpty) : (repeatD D reps).HonestlyEmpty := by
  intro e b
  refine wrap_barren (fun x => ∀ a, x.ctl ≠ .got a) (fun a ha => (by cases ha)) (fun _ _ a ha => (by cases ha))
    (fun _ _ a ha => (by cases ha)) ?_ b
  rintro ⟨o, c⟩ hc
  cases c with
  | start =>
    cases reps with
    | none =>
      simp only [repeatW]
      split
      · intro a ha; cases ha
      · trivial
    | some n =>
      simp only [repeatW]
      split
      · intro a ha; cases ha
      · intro a ha; cases ha
  | loop => exact ⟨fun a ha => (h e a ha).elim, fun a ha => (by cases ha)⟩
  | got a => exact (hc a rfl).elim

/-- **C88.** BlendDataset: it says that it has no samples exactly if none of its parts has any (then iterating raises). -/
theorem C88_blend (D : Nat → Dataset σ (Smp C) κ) (n : Nat) (R : Rng ρ) :
    (blendD D n R).HonestlyEmpty ∧ ((blendD D n R).hasSamples = false ↔ ∀ i < n, (D i).hasSamples = false) := by
  have key : (blendD D n R).hasSamples = false ↔ ∀ i < n, (D i).hasSamples = false := by
    show ((List.range n).any fun i => (D i).hasSamples) = false ↔ _
    simp
  refine ⟨fun e b => ?_, key⟩
  have hact : blendActive D n = [] := by
    unfold blendActive
    rw [List.filter_eq_nil_iff]
    intro i hi
    simp [key.1 e i (List.mem_range.1 hi)]
  have hr : (blendW D n R).NoReset := by
    intro x x' hh
    simp only [blendW] at hh
    split at hh
    · split at hh <;> cases hh
    · cases hh
    · split at hh <;> cases hh
    · cases hh
  refine wrapMulti_barren hr (fun x => x.ctl = .start) rfl (fun _ _ => rfl) (fun _ _ => rfl) ?_ b
  rintro ⟨g, c⟩ hc
  simp only at hc
  subst hc
  simp [blendW, hact, Act.Barren]

/-- **C88.** ConcatDataset: it says that it has no samples exactly if none of its parts has any. -/
theorem C88_concat (D : Nat → Dataset σ (Smp C) κ) (n : Nat) (h : ∀ i < n, (D i).HonestlyEmpty) :
    (concatD D n).HonestlyEmpty ∧ ((concatD D n).hasSamples = false ↔ ∀ i < n, (D i).hasSamples = false) := by
  have key : (concatD D n).hasSamples = false ↔ ∀ i < n, (D i).hasSamples = false := by
    show ((List.range n).any fun i => (D i).hasSamples) = false ↔ _
    simp
  refine ⟨fun e b => ?_, key⟩
  have hr : (concatW D n).NoReset := by
    intro x x' hh
    simp only [concatW] at hh
    split at hh
    · split at hh <;> cases hh
    · cases hh
  refine wrapMulti_barren hr (fun x => ∃ i, x = .part i) ⟨_, rfl⟩ (fun _ _ => ⟨_, rfl⟩) (fun _ _ => ⟨_, rfl⟩) ?_ b
  rintro x ⟨i, rfl⟩
  simp only [concatW]
  split
  · rename_i hi
    exact ⟨fun a ha => (h i hi (key.1 e i hi) a ha).elim, ⟨_, rfl⟩⟩
  · exact ⟨_, rfl⟩

/-! ## The converse does not hold -/

/-- The full property: `worker_has_samples` is `True` exactly if the worker can deliver a sample. -/
def C88_statement (D : Dataset σ α κ) : Prop := D.hasSamples = false ↔ ∀ a, ¬ D.Yields true a

/-- **C88 violated (1).** LimitDataset looks at the total length only (limit_dataset.py:114-115): a worker whose share is 0 is said to have samples, and never
delivers one, whatever the dataset. -/
theorem C88_violated_limit {D : Dataset σ α κ} {length nw w : Nat} (ra : Bool) (hD : D.hasSamples = true) (hl : 0 < length) (hs : localShare length nw w = 0) :
    (limitD D length nw w ra).hasSamples = true ∧ (∀ a, ¬ (limitD D length nw w ra).Yields true a) ∧ ¬ C88_statement (limitD D length nw w ra) := by
  have h1 : (limitD D length nw w ra).hasSamples = true := by
    show (D.hasSamples && decide (0 < length)) = true
    simp [hD, hl]
  have h2 : ∀ a, ¬ (limitD D length nw w ra).Yields true a := by
    intro b
    refine wrap_barren (fun x => ∀ a, x.ctl ≠ .got a ∧ x.ctl ≠ .loop) ?_ ?_ ?_ ?_ b
    · exact fun a => ⟨nofun, nofun⟩
    · exact fun _ _ a => ⟨nofun, nofun⟩
    · exact fun _ _ a => ⟨nofun, nofun⟩
    · rintro ⟨o, c⟩ hc
      rw [hs]
      cases c with
      | start => exact fun a => ⟨nofun, nofun⟩
      | loop => exact ((hc b).2 rfl).elim
      | got a => exact ((hc a).1 rfl).elim
      | finish =>
        intro a
        cases ra <;> exact ⟨nofun, nofun⟩
      | again => exact fun a => ⟨nofun, nofun⟩
      | done => exact fun a => ⟨nofun, nofun⟩
  refine ⟨h1, h2, fun h => ?_⟩
  have := h.2 h2
  rw [h1] at this
  cases this

/-- A set of states that is left by no step and in which nothing is delivered: no step ever shows anything. -/
theorem obs_none {step : σ → Step σ α} (P : σ → Prop) (h : ∀ s, P s → ∃ s', step s = .skip s' ∧ P s') {s : σ} (hs : P s) {o : Out σ α} : ¬ Obs step s o := by
  intro ho
  induction ho with
  | item e => obtain ⟨s', e', _⟩ := h _ hs; rw [e] at e'; cases e'
  | fin e => obtain ⟨s', e', _⟩ := h _ hs; rw [e] at e'; cases e'
  | err e => obtain ⟨s', e', _⟩ := h _ hs; rw [e] at e'; cases e'
  | skip e _ ih => obtain ⟨s', e', hp⟩ := h _ hs; rw [e] at e'; cases e'; exact ih hp

/-- **C88 violated (2).** The consequence: repeating such a dataset forever passes the check of repeat_dataset.py:60 ("Cannot repeat empty dataset infinitely") and
then hangs: `next` never returns anything, neither a sample nor an error nor the end. -/
theorem C88_violated_repeat {D : Dataset σ α κ} {length nw w : Nat} (ra : Bool) (hD : D.hasSamples = true) (hl : 0 < length) (hs : localShare length nw w = 0)
    (o : Out _ α) : ¬ Obs (repeatD (limitD D length nw w ra) none).step (repeatD (limitD D length nw w ra) none).init o := by
  have h1 := (C88_violated_limit (w := w) ra hD hl hs).1
  refine obs_none (fun s => (s.1.2.ctl ≠ .loop ∧ ∀ a, s.1.2.ctl ≠ .got a) ∧ ∀ a, s.2.ctl ≠ .got a) ?_ ?_
  · rintro ⟨⟨s, l, c⟩, n, k⟩ ⟨⟨ha, hb⟩, hc⟩
    have e : (limitD D length nw w ra).hasSamples = true := h1
    cases k with
    | start =>
      refine ⟨((s, ⟨l, c⟩), ⟨n + 1, .loop⟩), ?_, ⟨ha, hb⟩, nofun⟩
      unfold repeatD wrap
      simp only [wrapStep, repeatW, e, if_true]
    | got a => exact (hc a rfl).elim
    | loop =>
      have hstep : ∀ st, (limitD D length nw w ra).step (s, ⟨l, c⟩) = st →
          (∃ s' x, st = .skip (s', x) ∧ x.ctl ≠ .loop ∧ ∀ a, x.ctl ≠ .got a) ∨ (∃ s' x, st = .stop (s', x) ∧ x.ctl ≠ .loop ∧ ∀ a, x.ctl ≠ .got a) := by
        rintro st rfl
        show (∃ s' x, wrapStep (Source.single D) (limitW (localShare length nw w) ra _ _) (s, ⟨l, c⟩) = _ ∧ _) ∨
          (∃ s' x, wrapStep (Source.single D) (limitW (localShare length nw w) ra _ _) (s, ⟨l, c⟩) = _ ∧ _)
        rw [hs]
        cases c with
        | start => exact .inl ⟨s, _, rfl, nofun, nofun⟩
        | loop => exact (ha rfl).elim
        | got a => exact (hb a rfl).elim
        | finish => exact .inl ⟨_, _, rfl, by cases ra <;> exact nofun, by cases ra <;> exact nofun⟩
        | again => exact .inl ⟨_, _, rfl, nofun, nofun⟩
        | done => exact .inr ⟨_, _, rfl, nofun, nofun⟩
      rcases hstep _ rfl with ⟨s', x, hst, hx1, hx2⟩ | ⟨s', x, hst, hx1, hx2⟩
      · refine ⟨((s', x), ⟨n, .loop⟩), ?_, ⟨hx1, hx2⟩, nofun⟩
        unfold repeatD wrap
        simp only [wrapStep, repeatW, Source.single, hst]
      · refine ⟨((s', x), ⟨n, .start⟩), ?_, ⟨hx1, hx2⟩, nofun⟩
        unfold repeatD wrap
        simp only [wrapStep, repeatW, Source.single, hst]
  · exact ⟨⟨nofun, nofun⟩, nofun⟩

/-- The hypotheses are met: the first of two workers of a dataset limited to 1 sample gets 1, the second 0. -/
example : localShare 1 2 0 = 1 ∧ localShare 1 2 1 = 0 ∧ (listD [10, 11, 12]).hasSamples = true := by decide

/-- `HonestlyEmpty` is not vacuous: an empty dataset, alone and in a blend with another one. -/
example : (listD ([] : List Nat)).hasSamples = false ∧ (filterD (listD ([] : List Nat)) fun _ _ => some true).hasSamples = false ∧
    ∀ R : Rng Nat, (blendD (fun i => if i = 0 then listD ([] : List Nat) else listD [5]) 1 R).hasSamples = false ∧
      (blendD (fun i => if i = 0 then listD ([] : List Nat) else listD [5]) 2 R).hasSamples = true := by
  refine ⟨by decide, by decide, fun R => ⟨?_, ?_⟩⟩
  · show ((List.range 1).any fun i => (if i = 0 then listD ([] : List Nat) else listD [5]).hasSamples) = false
    decide
  · show ((List.range 2).any fun i => (if i = 0 then listD ([] : List Nat) else listD [5]).hasSamples) = true
    decide

end Verif.Stream

namespace Verif.Wds

open Verif.Stream

variable {C ρ : Type}

/-! ## The webdataset reader -/

theorem zero_obs {R : WRng ρ} {c : Cfg C} {x : LdX C ρ} (hz : ∀ s ∈ c.shards, s.count = 0) (h : Mem c x) {o} (ho : Obs (ldStep R c) x o) :
    ∀ a x', o ≠ .item a x' := by
  induction ho with
  | @item s b s' he =>
    intro a x' e
    have hs := lstep R c s
    rw [he] at hs
    generalize hst : Stream.Step.yield b s' = st at hs
    cases hs <;> cases hst
    rename_i i g t pos hc hw hpi ha hp
    obtain ⟨w, hwm, hw0⟩ := hw
    rcases w with _ | ⟨t', p'⟩
    · exact hw0 rfl
    · exact hw0 (hz t' (h.2 _ hwm _ _ rfl))
  | fin he => intro a x' e; cases e
  | err => intro a x' e; cases e
  | @skip s s' o he _ ih => exact ih ((h.step (lstep R c s)).2.1 _ he)

/-- **C88.** The reader: it says that the worker has no samples exactly if the slices of this worker have none, according to the index. -/
theorem C88_reader {R : WRng ρ} {c : Cfg C} {restore : List Key → Option (Smp C)} (hd : (c.shards.map (·.id)).Nodup) :
    (loaderD R c restore).HonestlyEmpty ∧ ((loaderD R c restore).hasSamples = false ↔ ∀ s ∈ c.shards, s.count = 0) := by
  have key : (loaderD R c restore).hasSamples = false ↔ ∀ s ∈ c.shards, s.count = 0 := by
    show (c.shards.any fun s => decide (0 < s.count)) = false ↔ _
    simp
  refine ⟨fun e a => ?_, key⟩
  rintro ⟨s, s', hp, ho⟩
  exact zero_obs (key.1 e) (paused_atRest hd hp).1 ho a s' rfl

end Verif.Wds
