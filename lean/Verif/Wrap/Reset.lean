import Verif.Stream.Ends
import Verif.Wrap.SimpleLemmas
import Verif.Wrap.LengthProps
import Verif.Wrap.BlendLemmas
import Verif.Wrap.BatchProps
import Verif.Wrap.BatchGenProps
import Verif.Wrap.GroupProps
import Verif.Wrap.PackProps
import Verif.Wrap.MapGenProps
import Verif.Wrap.IterMapProps
import Verif.Wrap.ShuffleLemmas
import Verif.Wds.LoaderProps

/-!
# C89: `restore_state(None)` starts over

The specification is `Dataset.ResetsToInit` (Stream/Spec.lean): in every state in which user code can have control, `restore_state(None)` and then iterating gives
exactly the samples (contents and restore keys), ends of passes and errors of a newly built dataset.
`LimitDataset` relies on it: it resets its source after each pass (limit_dataset.py:108-112).
-/

namespace Verif.Stream

variable {σ κ α β C C' X KX ρ K : Type}

/-! ## Wrappers -/

/-- Whatever a wrapper does, its source is in a state in which it may be left. -/
theorem wrap_inner_paused {D : Dataset σ α κ} {W : Wrapper Unit α β X KX} {p : σ × X} (h : (wrap D W).Paused true p) : D.Paused true p.1 := by
  have H : WInv (Source.single D) W (D.Paused true) (fun _ => True) (fun _ => True) :=
    { resume_to := fun _ h => h
      emit := fun _ _ _ _ _ => trivial
      halt := fun _ _ _ _ => trivial
      tau := fun _ _ _ _ => trivial
      reset := fun _ _ _ _ => trivial
      resetP := fun x x' s _ _ hs => .reset rfl hs
      pullItem := fun x i f g hx ha s a s' hs ho => ⟨trivial, .item hs ho⟩
      pullFin := fun x i f g hx ha s s' hs ho => ⟨trivial, .fin hs ho⟩ }
  exact (wrap_paused H trivial (fun _ _ => trivial) (fun _ _ _ => trivial) h).1

theorem wrapMulti_inner_paused {D : Nat → Dataset σ α κ} {W : Wrapper Nat α β X KX} (hr : W.NoReset) {p : (Nat → σ) × X}
    (h : (wrapMulti D W).Paused true p) : ∀ j, (D j).Paused true (p.1 j) := by
  have H : WInv (Source.multi D) W (fun S => ∀ j, (D j).Paused true (S j)) (fun _ => True) (fun _ => True) :=
    WInv.mkMulti hr (fun _ h => h) (fun _ _ _ _ _ => trivial) (fun _ _ _ _ => trivial) (fun _ _ _ _ => trivial) (fun _ _ _ _ _ _ _ _ => trivial)
      (fun _ _ _ _ _ _ => trivial)
  exact (wrapMulti_paused H trivial (fun _ _ => trivial) (fun _ _ _ => trivial) h).1

theorem wrap_resets {D : Dataset σ α κ} {W : Wrapper Unit α β X KX} (hr : W.NoReset) (hx : ∀ x, W.reset x = W.init) (hD : D.ResetsToInit) :
    (wrap D W).ResetsToInit := by
  rintro ⟨s, x⟩ h
  show (wrap D W).Equiv (D.reset s, W.reset x) (D.init, W.init)
  rw [hx]
  exact wrap_equiv hr (hD s (wrap_inner_paused h)) _

variable {D : Dataset σ (Smp C) κ}

/-- **C89.** FilterDataset -/
theorem C89_filter (p : FilterFn C) (h : D.ResetsToInit) : (filterD D p).ResetsToInit := loopW_resets h

/-- **C89.** MapDataset -/
theorem C89_map (f : MapFn C C') (st : Bool) (h : D.ResetsToInit) : (mapD D f st).ResetsToInit := loopW_resets h

/-- **C89.** LogSampleDataset -/
theorem C89_log (h : D.ResetsToInit) : (logD D).ResetsToInit := loopW_resets h

/-- **C89.** GcDataset -/
theorem C89_gc (h : D.ResetsToInit) : (gcD D).ResetsToInit := by
  unfold gcD
  refine wrap_resets ?_ (fun _ => rfl) h
  intro x x' hh
  exact loopW_noReset (body := fun _ (a : Smp C) => .out a) (rs := D.restoreSample) (has := D.hasSamples) x x' hh

/-- **C89.** MapDataset with a generator function -/
theorem C89_map_generator (f : GenFn C C') (st : Bool) (h : D.ResetsToInit) : (mapGenD D f st).ResetsToInit := wrap_resets mapGen_noReset (fun _ => rfl) h

/-- **C89.** IterMapDataset -/
theorem C89_iter_map (g : IterFn C C') (st : Bool) (h : D.ResetsToInit) : (iterMapD D g st).ResetsToInit := wrap_resets iterMap_noReset (fun _ => rfl) h

/-- **C89.** BatchDataset -/
theorem C89_batch (bs : Nat) (dl : Bool) (f : BatchFn C C') (h : D.ResetsToInit) : (batchD D bs dl f).ResetsToInit := wrap_resets batch_noReset (fun _ => rfl) h

/-- **C89.** BatchDataset with a generator function -/
theorem C89_batch_generator (bs : Nat) (dl : Bool) (f : FinalFn C C') (h : D.ResetsToInit) : (batchGenD D bs dl f).ResetsToInit :=
  wrap_resets batchGen_noReset (fun _ => rfl) h

/-- **C89.** PackingDataset -/
theorem C89_pack (size : Nat) (pre : PreFn C) (gen : Bool) (f : FinalFn C C') (h : D.ResetsToInit) : (packD D size pre gen f).ResetsToInit :=
  wrap_resets pack_noReset (fun _ => rfl) h

/-- **C89.** LimitDataset -/
theorem C89_limit {D : Dataset σ α κ} (length nw w : Nat) (ra : Bool) (h : D.ResetsToInit) : (limitD D length nw w ra).ResetsToInit := limit_resets D length nw w ra h

/-- **C89.** RepeatDataset -/
theorem C89_repeat {D : Dataset σ α κ} (reps : Option Nat) (h : D.ResetsToInit) : (repeatD D reps).ResetsToInit := wrap_resets repeat_noReset (fun _ => rfl) h

/-- **C89.** ConcatDataset -/
theorem C89_concat (D : Nat → Dataset σ (Smp C) κ) (n : Nat) (h : ∀ i, (D i).ResetsToInit) : (concatD D n).ResetsToInit := by
  rintro ⟨s, x⟩ hp
  exact wrapMulti_equiv concat_noReset (fun j => h j _ (wrapMulti_inner_paused concat_noReset hp j)) _

/-! ## Shuffling, blending, grouping -/

/-- The full property. -/
def C89_statement (D : Dataset σ α κ) (D' : Dataset X β KX) : Prop := D.ResetsToInit → D'.ResetsToInit

/-- A random generator for examples: it counts. -/
def resetRng : Rng Nat :=
  { seed := 0, below := fun g n => (g % n, g + 1), below_lt := fun g _ h => Nat.mod_lt g h, choice := fun g n => (g % n, g + 1), choice_lt := fun g _ h => Nat.mod_lt g h }

theorem trace_of_step {D D' : Dataset σ α κ} (e : D.step = D'.step) {s : σ} {evs : List (Ev α)} (h : D.Trace s evs) : D'.Trace s evs := by
  induction h with
  | nil => exact .nil
  | item h1 _ ih => exact .item (e ▸ h1) ih
  | fin h1 _ ih => exact .fin (e ▸ h1) ih
  | err h1 => exact .err (e ▸ h1)

/-- **C89, shuffling.** The random generator goes on (rng.py:111-113 forgets only a state that waits to be restored): what follows is what a new dataset delivers with another
seed. -/
theorem C89_shuffle_partial (R : Rng ρ) (size : Nat) (h : D.ResetsToInit) (p) (hp : (shuffleD D R size).Paused true p) :
    ∃ g : ρ, ∀ evs, (shuffleD D R size).Trace ((shuffleD D R size).reset p) evs ↔
      (shuffleD D { R with seed := g } size).Trace (shuffleD D { R with seed := g } size).init evs := by
  refine ⟨p.2.rng, fun evs => ?_⟩
  have hstep : (shuffleD D R size).step = (shuffleD D { R with seed := p.2.rng } size).step := rfl
  have key := (wrap_equiv (W := shuffleW D R size) shuffle_noReset (h p.1 (wrap_inner_paused hp)) ⟨[], p.2.rng, .fill⟩) evs
  exact ⟨fun ht => trace_of_step hstep (key.1 ht), fun ht => key.2 (trace_of_step hstep.symm ht)⟩

/-- **C89, blending.** As for shuffling. -/
theorem C89_blend_partial (D : Nat → Dataset σ (Smp C) κ) (n : Nat) (R : Rng ρ) (h : ∀ i, (D i).ResetsToInit) (p) (hp : (blendD D n R).Paused true p) :
    ∃ g : ρ, ∀ evs, (blendD D n R).Trace ((blendD D n R).reset p) evs ↔
      (blendD D n { R with seed := g }).Trace (blendD D n { R with seed := g }).init evs := by
  refine ⟨p.2.rng, fun evs => ?_⟩
  have hstep : (blendD D n R).step = (blendD D n { R with seed := p.2.rng }).step := rfl
  have key := (wrapMulti_equiv (W := blendW D n R) blend_noReset (fun j => h j _ (wrapMulti_inner_paused blend_noReset hp j)) ⟨p.2.rng, .start⟩) evs
  exact ⟨fun ht => trace_of_step hstep (key.1 ht), fun ht => key.2 (trace_of_step hstep.symm ht)⟩

/-- **C89, grouping.** The groups are emptied, but the numbers of the samples and batches go on (group_batch_dataset.py:251-252). -/
theorem C89_group_partial [DecidableEq K] (fixed : Option Nat) (key : GroupFn C K) (f : BatchFn C C') (dl : Bool) (h : D.ResetsToInit) (p)
    (hp : (groupD D fixed key f dl).Paused true p) :
    (groupD D fixed key f dl).Equiv ((groupD D fixed key f dl).reset p) (D.init, { p.2 with buckets := [], ctl := .loop }) :=
  wrap_equiv (W := groupW D fixed key f dl) group_noReset (h p.1 (wrap_inner_paused hp)) _

/-- **C89 violated (1).** Shuffling: 1, 2, 3 in a buffer of 3, reset after the first sample. -/
theorem C89_violated_shuffle : (listD [1, 2, 3]).ResetsToInit ∧ ¬ C89_statement (listD [1, 2, 3]) (shuffleD (listD [1, 2, 3]) resetRng 3) := by
  refine ⟨listD_resets _, fun h => ?_⟩
  have hp : (shuffleD (listD [1, 2, 3]) resetRng 3).Paused true _ := Dataset.after_paused (n := 30) (k := 1) rfl .init
  exact Dataset.not_equiv 30 3 (by decide +kernel) (by decide +kernel) (h (listD_resets _) _ hp)

/-- **C89 violated (2).** Blending: reset after the first sample, the other part comes first. -/
theorem C89_violated_blend : (∀ i : Nat, (listD [i]).ResetsToInit) ∧ ¬ ((∀ i : Nat, (listD [i]).ResetsToInit) → (blendD (fun i => listD [i]) 2 resetRng).ResetsToInit) := by
  refine ⟨fun i => listD_resets _, fun h => ?_⟩
  have hp : (blendD (fun i => listD [i]) 2 resetRng).Paused true _ := Dataset.after_paused (n := 30) (k := 1) rfl .init
  exact Dataset.not_equiv 30 1 (by decide +kernel) (by decide +kernel) (h (fun i => listD_resets _) _ hp)

/-- **C89 violated (3).** Grouping: after the reset the same batches are numbered on. So a validation set with groups, which is reset after every pass, delivers its batches
with other restore keys in every pass, and the functions of the user see other sample indexes. -/
theorem C89_violated_group : (listD [1, 3]).ResetsToInit ∧
    ¬ C89_statement (listD [1, 3]) (groupD (listD [1, 3]) (some 2) parity sumBatch false) ∧
    ((limitD (groupD (listD [1, 3]) (some 2) parity sumBatch false) 5 1 0 true).eval 60
      (limitD (groupD (listD [1, 3]) (some 2) parity sumBatch false) 5 1 0 true).init).take 4 =
      [.item ⟨4, [.str "GroupBatchDataset", .num 0, .tup [.num 0], .tup [.num 1]]⟩, .fin,
       .item ⟨4, [.str "GroupBatchDataset", .num 1, .tup [.num 0], .tup [.num 1]]⟩, .fin] := by
  refine ⟨listD_resets _, fun h => ?_, by decide +kernel⟩
  have hp : (groupD (listD [1, 3]) (some 2) parity sumBatch false).Paused true _ := Dataset.after_paused (n := 30) (k := 1) rfl .init
  exact Dataset.not_equiv 30 1 (by decide +kernel) (by decide +kernel) (h (listD_resets _) _ hp)

/-- The hypotheses are met by a stack of wrappers. -/
example : (limitD (batchD (filterD (listD [1, 2, 3, 4, 5]) fun _ a => some (a.content % 2 == 1)) 2 false sumBatch) 3 1 0 true).ResetsToInit :=
  C89_limit _ _ _ _ (C89_batch _ _ _ (C89_filter _ (listD_resets _)))

end Verif.Stream

namespace Verif.Wds

open Verif.Stream

variable {C ρ : Type}

/-! ## The webdataset reader -/

/-- The same state up to the random generator and the counters (which are only logged) -/
private def SameUpTo (x y : LdX C ρ) : Prop := x.pending = y.pending ∧ x.active = y.active ∧ x.ctl = y.ctl

private inductive StepRel (P : LdX C ρ → LdX C ρ → Prop) : Stream.Step (LdX C ρ) (Smp C) → Stream.Step (LdX C ρ) (Smp C) → Prop where
  | yield {a x y} : P x y → StepRel P (.yield a x) (.yield a y)
  | skip {x y} : P x y → StepRel P (.skip x) (.skip y)
  | stop {x y} : P x y → StepRel P (.stop x) (.stop y)
  | raise : StepRel P .raise .raise

private theorem upTo_step {R : WRng ρ} {c : Cfg C} (hc : c.mode = .none) {x y : LdX C ρ} (h : SameUpTo x y) : StepRel SameUpTo (ldStep R c x) (ldStep R c y) := by
  obtain ⟨p, a, g, n, e, m, t⟩ := x
  obtain ⟨p', a', g', n', e', m', t'⟩ := y
  obtain ⟨h1, h2, h3⟩ := h
  simp only at h1 h2 h3
  subst h1 h2 h3
  cases t with
  | fresh =>
    simp only [ldStep]
    split
    · exact .stop ⟨rfl, rfl, rfl⟩
    · exact .skip ⟨rfl, rfl, rfl⟩
  | top =>
    simp only [ldStep]
    split
    · exact .skip ⟨rfl, rfl, rfl⟩
    · refine .skip ?_
      simp only [newEpoch, shardsOnce, hc]
      exact ⟨rfl, rfl, rfl⟩
  | pick =>
    simp only [ldStep, pickIdx, hc]
    split
    · split
      · exact .skip ⟨rfl, rfl, rfl⟩
      · exact .stop ⟨rfl, rfl, rfl⟩
    · split
      · split
        · exact .yield ⟨rfl, rfl, rfl⟩
        · refine .skip ?_
          simp only [exhausted, hc]
          split <;> exact ⟨rfl, rfl, rfl⟩
      · exact .raise

private theorem upTo_sim {R : WRng ρ} {c : Cfg C} (hc : c.mode = .none) : Sim (ldStep R c) (ldStep R c) SameUpTo := by
  intro x y h o ho
  induction ho generalizing y with
  | item e =>
    have := upTo_step (R := R) hc h
    rw [e] at this
    generalize hz : ldStep R c y = z at this
    cases this with
    | yield h' => exact ⟨_, .item hz, .item h'⟩
  | fin e =>
    have := upTo_step (R := R) hc h
    rw [e] at this
    generalize hz : ldStep R c y = z at this
    cases this with
    | stop h' => exact ⟨_, .fin hz, .fin h'⟩
  | err e =>
    have := upTo_step (R := R) hc h
    rw [e] at this
    generalize hz : ldStep R c y = z at this
    cases this with
    | raise => exact ⟨_, .err hz, .err⟩
  | skip e _ ih =>
    have := upTo_step (R := R) hc h
    rw [e] at this
    generalize hz : ldStep R c y = z at this
    cases this with
    | skip h' =>
      obtain ⟨o', h1, h2⟩ := ih _ h'
      exact ⟨o', .skip hz h1, h2⟩

/-- **C89.** The reader without shuffling (as in validation). -/
theorem C89_reader (R : WRng ρ) (c : Cfg C) (hc : c.mode = .none) (restore : List Key → Option (Smp C)) : (loaderD R c restore).ResetsToInit := by
  intro s _
  refine Dataset.Equiv.of_bisim (D := loaderD R c restore) (R := SameUpTo) (upTo_sim hc) ?_ ⟨rfl, rfl, rfl⟩
  intro x y h o ho
  obtain ⟨o', h1, h2⟩ := upTo_sim (R := R) hc x y ⟨h.1.symm, h.2.1.symm, h.2.2.symm⟩ o ho
  exact ⟨o', h1, h2.mono fun _ _ h => ⟨h.1.symm, h.2.1.symm, h.2.2.symm⟩⟩

private theorem drawN_seed (R : WRng ρ) (s : ρ) (l : List (Slice C)) (k : Nat) (g : ρ) : drawN { R with seed := s } l k g = drawN R l k g := by
  induction k generalizing g with
  | zero => rfl
  | succ k ih => simp only [drawN, ih]

private theorem ldStep_seed (R : WRng ρ) (s : ρ) (c : Cfg C) : ldStep { R with seed := s } c = ldStep R c := by
  funext x
  have h1 : newEpoch { R with seed := s } c x = newEpoch R c x := by
    have : ∀ g, shardsOnce { R with seed := s } c g = shardsOnce R c g := by
      intro g
      unfold shardsOnce
      split
      · rfl
      · exact drawN_seed R s c.shards c.parallel g
      · rfl
    simp only [newEpoch, this]
  unfold ldStep
  rw [h1]
  rfl

/-- **C89.** The reader with shuffling: what follows is what a new reader delivers with another seed. -/
theorem C89_reader_shuffled_partial (R : WRng ρ) (c : Cfg C) (restore : List Key → Option (Smp C)) (s : LdX C ρ) :
    ∃ g : ρ, ∀ evs, (loaderD R c restore).Trace ((loaderD R c restore).reset s) evs ↔
      (loaderD { R with seed := g } c restore).Trace (loaderD { R with seed := g } c restore).init evs := by
  refine ⟨s.rng, fun evs => ?_⟩
  have hstep : (loaderD { R with seed := s.rng } c restore).step = (loaderD R c restore).step := ldStep_seed R s.rng c
  exact ⟨fun h => trace_of_step hstep.symm h, fun h => trace_of_step hstep h⟩

end Verif.Wds
