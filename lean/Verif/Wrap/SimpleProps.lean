import Verif.Wrap.SimpleLemmas
import Verif.Stream.Example

/-!
# C12, C13: wrappers that treat one sample at a time

`p.2.idx` is the number of source samples the wrapper has seen before (0 at the beginning).
-/

namespace Verif.Stream

variable {σ κ C C' : Type}

/-! ## C12 -/

/-- A filtered dataset yields exactly the samples of its source satisfying the predicate, in order: for every pass
`xs` of the source on which the user's function raises nothing, the filtered dataset's pass is the list of
the `xs` for which the function returned true. -/
theorem C12_filter_pass (D : Dataset σ (Smp C) κ) (p : FilterFn C) (n : Nat) (xs : List (Smp C)) (s s' : σ)
    (hs : D.Pass s xs s') (hp : ∀ q ∈ xs.zipIdx n, p q.2 q.1 ≠ none) :
    (filterD D p).Pass (s, ⟨n, .loop⟩)
      (((xs.zipIdx n).filter fun q => p q.2 q.1 = some true).map Prod.fst)
      (s', ⟨n + xs.length, .loop⟩) := by
  have h : loopSpec (filterBody p) n xs =
      some (((xs.zipIdx n).filter fun q => p q.2 q.1 = some true).map Prod.fst) := by
    rw [loopSpec_isSome (by
      intro q hq
      have := hp q hq
      unfold filterBody
      cases h : p q.2 q.1 with
      | none => exact absurd h this
      | some b => cases b <;> simp)]
    congr 1
    have : ∀ l : List (Smp C × Nat), l.filterMap (fun q => (filterBody p q.2 q.1).out?) = (l.filter fun q => p q.2 q.1 = some true).map Prod.fst := by
      intro l
      induction l with
      | nil => rfl
      | cons q l ih =>
        unfold filterBody LoopRes.out? at *
        cases h : p q.2 q.1 with
        | none => simp [h, ih]
        | some b => cases b <;> simp [h, ih]
    exact this _
  exact loopW_pass h hs

/-- The same for an unfinished pass (in particular for sources that never end), in both directions: what the
filtered dataset has delivered is always the filtered version of what it has taken from its source. -/
theorem C12_filter_items (D : Dataset σ (Smp C) κ) (p : FilterFn C) (r : Bool)
    (t u : σ × LoopX (Smp C)) (ys : List (Smp C))
    (ht : (filterD D p).Paused r t) (h : (filterD D p).Items t ys u) :
    ∃ xs, D.Items t.1 xs u.1 ∧ u.2.idx = t.2.idx + xs.length ∧
      ys = ((xs.zipIdx t.2.idx).filter fun q => p q.2 q.1 = some true).map Prod.fst := by
  obtain ⟨xs, h1, h2, h3⟩ := loopW_items_inv ht h
  refine ⟨xs, h1, h3, ?_⟩
  obtain ⟨_, h4⟩ := loopSpec_some h2
  rw [h4]
  have : ∀ l : List (Smp C × Nat), l.filterMap (fun q => (filterBody p q.2 q.1).out?) = (l.filter fun q => p q.2 q.1 = some true).map Prod.fst := by
    intro l
    induction l with
    | nil => rfl
    | cons q l ih =>
      unfold filterBody LoopRes.out? at *
      cases h : p q.2 q.1 with
      | none => simp [h, ih]
      | some b => cases b <;> simp [h, ih]
  exact this _

/-- A filtered dataset resumes exactly whenever its source does. -/
theorem C12_filter_resumes (D : Dataset σ (Smp C) κ) (p : FilterFn C) (r : Bool) (h : D.ResumesExactly r) :
    (filterD D p).ResumesExactly r := loopW_resumes h

private theorem id_filterMap (l : List (Smp C × Nat)) : l.filterMap (fun q => (LoopRes.out q.1 : LoopRes (Smp C)).out?) = l.map Prod.fst := by
  induction l with
  | nil => rfl
  | cons q l ih => simp [LoopRes.out?]

private theorem id_spec (n : Nat) (xs : List (Smp C)) :
    loopSpec (fun _ (a : Smp C) => LoopRes.out a) n xs = some xs := by
  rw [loopSpec_isSome (by simp), id_filterMap]
  simp

/-- The log wrapper delivers in each pass the samples of its source unchanged. -/
theorem C12_log_pass (D : Dataset σ (Smp C) κ) (n : Nat) (xs : List (Smp C)) (s s' : σ)
    (hs : D.Pass s xs s') : (logD D).Pass (s, ⟨n, .loop⟩) xs (s', ⟨n + xs.length, .loop⟩) :=
  loopW_pass (id_spec n xs) hs

/-- The log wrapper delivers exactly what it takes from its source. -/
theorem C12_log_items (D : Dataset σ (Smp C) κ) (r : Bool) (t u : σ × LoopX (Smp C)) (ys : List (Smp C))
    (ht : (logD D).Paused r t) (h : (logD D).Items t ys u) : D.Items t.1 ys u.1 := by
  obtain ⟨xs, h1, h2, _⟩ := loopW_items_inv ht h
  rw [id_spec] at h2
  cases h2
  exact h1

/-- The log wrapper resumes exactly whenever its source does. -/
theorem C12_log_resumes (D : Dataset σ (Smp C) κ) (r : Bool) (h : D.ResumesExactly r) :
    (logD D).ResumesExactly r := loopW_resumes h

/-- The gc wrapper delivers in each pass the samples of its source unchanged. -/
theorem C12_gc_pass (D : Dataset σ (Smp C) κ) (n : Nat) (xs : List (Smp C)) (s s' : σ)
    (hs : D.Pass s xs s') : (gcD D).Pass (s, ⟨n, .loop⟩) xs (s', ⟨n + xs.length, .loop⟩) := by
  have := loopW_pass (rs := D.restoreSample) (has := D.hasSamples) (id_spec n xs) hs
  have key : ∀ (t u : σ × LoopX (Smp C)) (es : List (Ev (Smp C))),
      (wrap D (loopW (fun _ a => LoopRes.out a) D.restoreSample D.hasSamples)).Run t es u →
      (gcD D).Run t es u := by
    intro t u es h
    induction h with
    | nil => exact .nil
    | item h _ ih => exact .item h ih
    | fin h _ ih => exact .fin h ih
  exact key _ _ _ this

/-- The gc wrapper resumes exactly whenever its source does. -/
theorem C12_gc_resumes (D : Dataset σ (Smp C) κ) (r : Bool) (h : D.ResumesExactly r) :
    (gcD D).ResumesExactly r := by
  let W : Wrapper Unit (Smp C) (Smp C) (LoopX (Smp C)) Nat :=
    { loopW (fun _ a => .out a) D.restoreSample D.hasSamples with save := fun _ => 0 }
  have hinv := loopW_inv (D := D) (body := fun _ a => .out a) (rs := D.restoreSample)
    (has := D.hasSamples) r
  have hW : WInv (Source.single D) W (D.Paused r)
      (fun x => ∀ a, x.ctl = .got a → D.Yields r a) (fun x => x.ctl = .loop) :=
    { resume_to := hinv.resume_to, emit := hinv.emit, halt := hinv.halt, tau := hinv.tau
      reset := hinv.reset, resetP := hinv.resetP, pullItem := hinv.pullItem, pullFin := hinv.pullFin }
  refine wrap_resumes (W := W) hW rfl (fun _ _ => rfl) (fun _ _ _ => rfl)
    (fun x x' => loopW_noReset (body := fun _ a => .out a) (rs := D.restoreSample)
      (has := D.hasSamples) x x') h ?_
  rintro s ⟨n, c⟩ _ hx
  simp only at hx
  subst hx
  -- the counter has no influence on what is delivered
  have key : ∀ (m n : Nat) (o), ∀ s, WObs (Source.single D) W s ⟨m, .loop⟩ o →
      ∃ o', WObs (Source.single D) W s ⟨n, .loop⟩ o' ∧
        Out.Rel (fun p q => p.1 = q.1 ∧ p.2.ctl = .loop ∧ q.2.ctl = .loop) o o' := by
    intro m n o s h
    cases h with
    | emit h => cases h
    | halt h => cases h
    | raise h => cases h
    | tau h => cases h
    | reset h => cases h
    | pullErr h h2 => cases h; exact ⟨_, .pullErr rfl h2, .err⟩
    | pullFin h h2 h3 =>
      cases h
      cases h3 with
      | halt h => cases h; exact ⟨_, .pullFin rfl h2 (.halt rfl), .fin ⟨rfl, rfl, rfl⟩⟩
      | emit h => cases h
      | raise h => cases h
      | tau h => cases h
      | reset h => cases h
      | pullItem h => cases h
      | pullErr h => cases h
      | pullFin h => cases h
    | pullItem h h2 h3 =>
      cases h
      cases h3 with
      | emit h => cases h; exact ⟨_, .pullItem rfl h2 (.emit rfl), .item ⟨rfl, rfl, rfl⟩⟩
      | halt h => cases h
      | raise h => cases h
      | tau h => cases h
      | reset h => cases h
      | pullItem h => cases h
      | pullErr h => cases h
      | pullFin h => cases h
  refine Dataset.Equiv.of_bisim (D := wrap D W)
    (R := fun p q => p.1 = q.1 ∧ p.2.ctl = .loop ∧ q.2.ctl = .loop) ?_ ?_ ⟨rfl, rfl, rfl⟩
  · rintro ⟨s, ⟨m, c⟩⟩ ⟨t, ⟨n, d⟩⟩ ⟨h1, h2, h3⟩ o ho
    simp only at h1 h2 h3
    subst h1 h2 h3
    obtain ⟨o', h4, h5⟩ := key m n o s (wrap_obs.1 ho)
    exact ⟨o', wrap_obs.2 h4, h5⟩
  · rintro ⟨s, ⟨m, c⟩⟩ ⟨t, ⟨n, d⟩⟩ ⟨h1, h2, h3⟩ o ho
    simp only at h1 h2 h3
    subst h1 h2 h3
    obtain ⟨o', h4, h5⟩ := key m n o _ (wrap_obs.1 ho)
    exact ⟨o', wrap_obs.2 h4, h5.mono fun p q h => ⟨h.1.symm, h.2.2, h.2.1⟩⟩

-- the hypotheses are met: 5 samples, the odd ones are kept
example : (filterD (listD [1, 2, 3, 4, 5]) (fun _ a => some (a.content % 2 = 1))).eval 30 (0, ⟨0, .loop⟩)
    = [.item ⟨1, [.num 0]⟩, .item ⟨3, [.num 2]⟩, .item ⟨5, [.num 4]⟩, .fin,
       .item ⟨1, [.num 0]⟩, .item ⟨3, [.num 2]⟩, .item ⟨5, [.num 4]⟩, .fin,
       .item ⟨1, [.num 0]⟩, .item ⟨3, [.num 2]⟩] := by decide
example : (filterD (listD [1, 2, 3, 4, 5]) (fun _ a => some (a.content % 2 = 1))).ResumesExactly :=
  C12_filter_resumes _ _ _ (listD_resumes _ _)
example : (gcD (logD (listD [1, 2, 3]))).ResumesExactly :=
  C12_gc_resumes _ _ (C12_log_resumes _ _ (listD_resumes _ _))

/-! ## C13 -/

/-- What a mapped dataset has to deliver for the source samples `xs`, if `n` source samples were seen before:
in order, the results of the function called with the number of source samples before; failing and skipped
samples are left out; the restore key says which sample index the function saw. -/
def mapSpec (f : MapFn C C') (n : Nat) (xs : List (Smp C)) : List (Smp C') :=
  (xs.zipIdx n).filterMap fun q =>
    match f q.2 q.1 with
    | .ok c => some ⟨c, .str "MapDataset" :: .num q.2 :: q.1.key⟩
    | _ => none

theorem mapSpec_eq (f : MapFn C C') (n : Nat) (xs : List (Smp C)) :
    mapSpec f n xs = (xs.zipIdx n).filterMap fun q => (mapBody f q.2 q.1).out? := by
  unfold mapSpec
  congr 1
  funext q
  unfold mapBody Smp.addKey
  cases f q.2 q.1 <;> rfl

theorem mapBody_die (f : MapFn C C') (n : Nat) (a : Smp C) : mapBody f n a = .die ↔ f n a = .fatal := by
  unfold mapBody
  cases f n a <;> simp

/-- Mapping is faithful and isolates failing samples: for every pass of the source (without fatal errors). -/
theorem C13_map_pass (D : Dataset σ (Smp C) κ) (f : MapFn C C') (b : Bool) (n : Nat) (xs : List (Smp C))
    (s s' : σ) (hs : D.Pass s xs s') (hf : ∀ q ∈ xs.zipIdx n, f q.2 q.1 ≠ .fatal) :
    (mapD D f b).Pass (s, ⟨n, .loop⟩) (mapSpec f n xs) (s', ⟨n + xs.length, .loop⟩) := by
  refine loopW_pass ?_ hs
  rw [mapSpec_eq]
  exact loopSpec_isSome fun q hq h => hf q hq ((mapBody_die f q.2 q.1).1 h)

/-- For unfinished passes: what was delivered is the image of what was taken from the source. -/
theorem C13_map_items (D : Dataset σ (Smp C) κ) (f : MapFn C C') (b r : Bool)
    (t u : σ × LoopX (Smp C)) (ys : List (Smp C')) (ht : (mapD D f b).Paused r t)
    (h : (mapD D f b).Items t ys u) :
    ∃ xs, D.Items t.1 xs u.1 ∧ u.2.idx = t.2.idx + xs.length ∧ ys = mapSpec f t.2.idx xs := by
  obtain ⟨xs, h1, h2, h3⟩ := loopW_items_inv ht h
  exact ⟨xs, h1, h3, by rw [mapSpec_eq]; exact (loopSpec_some h2).2⟩

/-- A fatal (system) error in the user function is not swallowed: it reaches the user, after all samples before. -/
theorem C13_map_fatal (D : Dataset σ (Smp C) κ) (f : MapFn C C') (b : Bool) (n : Nat) (xs : List (Smp C))
    (a : Smp C) (s s' s'' : σ) (hs : D.Items s xs s') (hf : ∀ q ∈ xs.zipIdx n, f q.2 q.1 ≠ .fatal)
    (ha : Obs D.step s' (.item a s'')) (hfa : f (n + xs.length) a = .fatal) :
    (mapD D f b).Trace (s, ⟨n, .loop⟩) ((mapSpec f n xs).map .item ++ [.err]) := by
  rw [mapSpec_eq]
  exact loopW_err (loopSpec_isSome fun q hq h => hf q hq ((mapBody_die f q.2 q.1).1 h)) hs ha
    ((mapBody_die f _ _).2 hfa)

/-- A mapped dataset resumes exactly whenever its source does (contents, keys, and thereby the sample
indices given to the function). -/
theorem C13_map_resumes (D : Dataset σ (Smp C) κ) (f : MapFn C C') (b r : Bool) (h : D.ResumesExactly r) :
    (mapD D f b).ResumesExactly r := loopW_resumes h

-- the hypotheses are met by a function that fails for one sample and skips another
example : (mapD (listD [1, 2, 3, 4]) (fun n a => if a.content = 2 then .fail else if n = 2 then .skip
      else .ok (10 * a.content)) true).eval 10 (0, ⟨0, .loop⟩)
    = [.item ⟨10, [.str "MapDataset", .num 0, .num 0]⟩, .item ⟨40, [.str "MapDataset", .num 3, .num 3]⟩, .fin] := by
  decide
example : (mapD (listD [1, 2, 3, 4]) (fun n a => if a.content = 2 then .fail else if n = 2 then .skip
      else .ok (10 * a.content)) true).ResumesExactly :=
  C13_map_resumes _ _ _ _ (listD_resumes _ _)
example : (listD [1, 2]).Pass 0 [⟨1, [.num 0]⟩, ⟨2, [.num 1]⟩] 0 := listD_pass [1, 2]

/-! ## C34 for these wrappers -/

/-- Samples of a filtered dataset can be restored from their keys. -/
theorem C34_filter (D : Dataset σ (Smp C) κ) (p : FilterFn C) (r : Bool) (h : D.RestoresSamples r) :
    (filterD D p).RestoresSamples r := by
  intro t a u ht ho
  obtain ⟨n, a', ⟨s, s', h1, h2⟩, h3⟩ := loopW_emits ht ho
  have : a = a' := by
    unfold filterBody at h3
    cases hp : p n a' with
    | none => simp [hp] at h3
    | some b => cases b <;> simp [hp] at h3; exact h3.symm
  subst this
  exact h s a s' h1 h2

/-- Samples of a mapped dataset (with a stateless function) can be restored from their keys. -/
theorem C34_map (D : Dataset σ (Smp C) κ) (f : MapFn C C') (r : Bool) (h : D.RestoresSamples r) :
    (mapD D f true).RestoresSamples r := by
  intro t b u ht ho
  obtain ⟨n, a, ⟨s, s', h1, h2⟩, h3⟩ := loopW_emits ht ho
  have h4 := h s a s' h1 h2
  unfold mapBody at h3
  cases hf : f n a with
  | ok c =>
    rw [hf] at h3
    simp only [LoopRes.out.injEq] at h3
    subst h3
    simp [mapD, wrap, loopW, Smp.addKey, mapRestore, h4, hf]
  | skip => rw [hf] at h3; cases h3
  | fail => rw [hf] at h3; cases h3
  | fatal => rw [hf] at h3; cases h3

/-- Samples of a logged dataset can be restored from their keys. -/
theorem C34_log (D : Dataset σ (Smp C) κ) (r : Bool) (h : D.RestoresSamples r) :
    (logD D).RestoresSamples r := by
  intro t b u ht ho
  obtain ⟨n, a, ⟨s, s', h1, h2⟩, h3⟩ := loopW_emits ht ho
  have h4 := h s a s' h1 h2
  cases h3
  exact h4

example : (mapD (filterD (listD [1, 2, 3]) (fun _ _ => some true)) (fun n a => .ok (n + a.content)) true).RestoresSamples :=
  C34_map _ _ _ (C34_filter _ _ _ (listD_restores _ _))

end Verif.Stream
