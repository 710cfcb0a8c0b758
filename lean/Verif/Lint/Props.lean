import Verif.Lint.Model

/-!
# C85: `energon lint`; C86: the error handler is told what failed
-/

namespace Verif.Lint

/-! ## Specification -/

/-- Nothing goes wrong with the sample (`SkipSample` is a way to leave out a sample on purpose). -/
def Smp.Fine (s : Smp) : Prop := (∀ p ∈ s.parts, p = none) ∧ (s.load = .ok ∨ s.load = .skip)

/-- Something raises one of the exceptions that are never handled. -/
def Smp.Fatal (s : Smp) : Prop := some Fault.fatal ∈ s.parts ∨ s.load = .fault .fatal

instance (s : Smp) : Decidable s.Fatal := inferInstanceAs (Decidable (_ ∨ _))

/-- The failures of a sample that are to be handled: of its files, then of its loading -/
def Smp.errors (s : Smp) : List Nat :=
  s.parts.filterMap (fun p => match p with | some (.error e) => some e | _ => none) ++
    (match s.load with | .fault (.error e) => [e] | _ => [])

/-- The index of every shard has one entry more than the shard has samples (each begin, and the end). -/
def IndexOk (d : Disk) : Prop := ∀ c ∈ d.counts, d.index c.1 = some (c.2 + 1)

/-- The dataset is without faults: what `lint` is to find out for the given parts of the split. -/
def Healthy (d : Disk) (sps : List String) : Prop :=
  IndexOk d ∧ ∀ sp ∈ sps, d.split sp = .noShards ∨ ∃ l, d.split sp = .shards l ∧ ∀ s ∈ l, s.Fine

/-- Each sample is loaded by exactly one of the worker processes. -/
def Deals (deal : Nat → List Smp → List (List Smp)) : Prop := ∀ n l, 0 < n → (deal n l).flatten.Perm l

/-- **C85, the full statement**: with every number of worker processes, `lint` of a dataset directory succeeds exactly if the dataset is
without faults. -/
def C85_statement : Prop :=
  ∀ (d : Disk) (deal : Nat → List Smp → List (List Smp)) (n : Nat) (sps : List String), Deals deal → d.isDir = true →
    (lint d deal n sps = .ok ↔ Healthy d sps)

/-- The parts of the split have shards. -/
def NonEmpty (d : Disk) (sps : List String) : Prop := ∀ sp ∈ sps, ∃ l, d.split sp = .shards l

/-! ## Samples -/

theorem readParts_fatal (key : String) (l : List (Option Fault)) : (readParts key l).2 = true ↔ some Fault.fatal ∈ l := by
  induction l with
  | nil => simp [readParts]
  | cons p l ih =>
    rcases p with _ | (e | _)
    · simp [readParts, ih]
    · simp [readParts, ih]
    · simp [readParts]

theorem readParts_calls (key : String) (l : List (Option Fault)) (h : some Fault.fatal ∉ l) :
    (readParts key l).1 = (l.filterMap (fun p => match p with | some (.error e) => some e | _ => none)).map fun e => (e, some key) := by
  induction l with
  | nil => rfl
  | cons p l ih =>
    have ih := ih (fun hm => h (List.mem_cons_of_mem _ hm))
    rcases p with _ | (e | _)
    · simpa [readParts] using ih
    · simp [readParts, ih]
    · exact absurd (List.mem_cons_self ..) h

theorem loadOne_fatal (s : Smp) : (loadOne s).fatal = true ↔ s.Fatal := by
  unfold loadOne Smp.Fatal
  rw [← readParts_fatal s.key]
  rcases h : readParts s.key s.parts with ⟨c, b⟩
  cases b
  · rcases s.load with _ | _ | (e | _) <;> simp [handlerKey]
  · simp

/-- The calls for a sample: the failures of its files with its key, the failure of its loading without -/
def Smp.calls (s : Smp) : List Call :=
  s.parts.filterMap (fun p => match p with | some (.error e) => some (e, some s.key) | _ => none) ++
    (match s.load with | .fault (.error e) => [(e, none)] | _ => [])

theorem loadOne_eq (s : Smp) (h : ¬ s.Fatal) : loadOne s = ⟨s.calls, if s.load = .ok then [s] else [], false⟩ := by
  have hp : some Fault.fatal ∉ s.parts := fun hm => h (.inl hm)
  have hl : s.load ≠ .fault .fatal := fun hm => h (.inr hm)
  have h1 := readParts_calls s.key s.parts hp
  have h2 : (readParts s.key s.parts).2 = false := by
    cases hb : (readParts s.key s.parts).2 with
    | false => rfl
    | true => exact absurd ((readParts_fatal _ _).1 hb) hp
  have h3 : readParts s.key s.parts = (s.parts.filterMap (fun p => match p with | some (.error e) => some (e, some s.key) | _ => none), false) := by
    rw [← h2, Prod.ext_iff]
    refine ⟨?_, rfl⟩
    rw [h1, List.map_filterMap]
    congr 1
    funext p
    rcases p with _ | (e | _) <;> rfl
  unfold loadOne Smp.calls
  rw [h3]
  rcases hs : s.load with _ | _ | (e | _)
  · simp
  · simp
  · simp [handlerKey]
  · exact absurd hs hl

theorem loadAll_fatal (l : List Smp) : (loadAll l).fatal = true ↔ ∃ s ∈ l, s.Fatal := by
  induction l with
  | nil => simp [loadAll]
  | cons s l ih =>
    simp only [loadAll]
    by_cases h : (loadOne s).fatal = true
    · rw [if_pos h]
      exact ⟨fun _ => ⟨s, List.mem_cons_self .., (loadOne_fatal s).1 h⟩, fun _ => h⟩
    · rw [if_neg h]
      constructor
      · intro ht
        obtain ⟨t, h1, h2⟩ := ih.1 ht
        exact ⟨t, List.mem_cons_of_mem _ h1, h2⟩
      · rintro ⟨t, h1, h2⟩
        rcases List.mem_cons.1 h1 with rfl | h1
        · exact absurd ((loadOne_fatal _).2 h2) h
        · exact ih.2 ⟨t, h1, h2⟩

theorem loadAll_eq (l : List Smp) (h : ∀ s ∈ l, ¬ s.Fatal) :
    loadAll l = ⟨l.flatMap Smp.calls, l.filter (fun s => s.load = .ok), false⟩ := by
  induction l with
  | nil => rfl
  | cons s l ih =>
    have ih := ih (fun t ht => h t (List.mem_cons_of_mem _ ht))
    simp only [loadAll, loadOne_eq s (h s (List.mem_cons_self ..)), ih]
    by_cases hs : s.load = .ok
    · simp [hs]
    · simp [hs]

/-- What a user's handler is to be told: each failure, with the key of its sample -/
def told (s : Smp) : List Call := s.errors.map fun e => (e, some s.key)

/-- **C86, the full statement**: if nothing raises an exception that is never handled, the handler is called once for each failure, in order, with the
exception and the key of its sample, and the samples that load are delivered, in order. -/
def C86_statement : Prop :=
  ∀ l : List Smp, (∀ s ∈ l, ¬ s.Fatal) →
    (loadAll l).calls = l.flatMap told ∧ (loadAll l).out = l.filter (fun s => s.load = .ok) ∧ (loadAll l).fatal = false

theorem calls_errors (s : Smp) : s.calls.map (·.1) = s.errors := by
  unfold Smp.calls Smp.errors
  rw [List.map_append, List.map_filterMap]
  congr 1
  · congr 1
    funext p
    rcases p with _ | (e | _) <;> rfl
  · rcases s.load with _ | _ | (e | _) <;> rfl

/-- **C86, the part that holds**: the handler is called once for each failure, in order, with the exception; for the failures of files it is given
the key of the sample; the samples that load are delivered, in order. What is missing: the key of a sample whose loading fails
(`C86_violated`). -/
theorem C86_calls_partial (l : List Smp) (h : ∀ s ∈ l, ¬ s.Fatal) :
    (loadAll l).calls.map (·.1) = l.flatMap Smp.errors ∧ (loadAll l).out = l.filter (fun s => s.load = .ok) ∧ (loadAll l).fatal = false ∧
      ((∀ s ∈ l, s.load = .ok ∨ s.load = .skip) → (loadAll l).calls = l.flatMap told) := by
  rw [loadAll_eq l h]
  refine ⟨?_, rfl, rfl, fun ho => ?_⟩
  · simp only [List.map_flatMap]
    congr 1
    funext s
    exact calls_errors s
  · rw [List.flatMap_def, List.flatMap_def]
    refine congrArg List.flatten (List.map_congr_left fun s hs => ?_)
    unfold Smp.calls told Smp.errors
    have key : s.parts.filterMap (fun p => match p with | some (.error e) => some (e, some s.key) | _ => none) =
        (s.parts.filterMap (fun p => match p with | some (.error e) => some e | _ => none)).map fun e => (e, some s.key) := by
      rw [List.map_filterMap]
      congr 1
      funext p
      rcases p with _ | (e | _) <;> rfl
    rcases ho s hs with h1 | h1 <;> rw [h1, key, List.append_nil, List.append_nil]

/-- **C86.** An exception that is never handled ends the iteration: what comes before the sample is treated as usual, nothing comes after it. -/
theorem C86_fatal (l m : List Smp) (s : Smp) (h : ∀ t ∈ l, ¬ t.Fatal) (hs : s.Fatal) :
    (loadAll (l ++ s :: m)).out = l.filter (fun s => s.load = .ok) ∧ (loadAll (l ++ s :: m)).fatal = true := by
  refine ⟨?_, (loadAll_fatal _).2 ⟨s, by simp, hs⟩⟩
  induction l with
  | nil =>
    have hf := (loadOne_fatal s).2 hs
    have ho : (loadOne s).out = [] := by
      unfold loadOne at hf ⊢
      rcases h : readParts s.key s.parts with ⟨c, b⟩
      rw [h] at hf
      cases b
      · rcases hl : s.load with _ | _ | (e | _) <;> simp [hl, handlerKey] at hf ⊢
      · rfl
    simp only [List.nil_append, loadAll, if_pos hf, ho, List.filter_nil]
  | cons t l ih =>
    have ih := ih (fun u hu => h u (List.mem_cons_of_mem _ hu))
    simp only [List.cons_append, loadAll, loadOne_eq t (h t (List.mem_cons_self ..)), ih]
    by_cases ht : t.load = .ok <;> simp [ht]

/-- **C86 is violated**: the handler is not told the key of a sample whose loading fails. -/
theorem C86_violated : ¬ C86_statement := by
  intro h
  have := (h [⟨"a/1", [none], .fault (.error 7)⟩] (by decide +kernel)).1
  exact absurd this (by decide +kernel)

/-- … for no sample of any dataset: whenever a key is given, it is of a failing file. -/
theorem C86_violated_always (l : List Smp) (h : ∀ s ∈ l, ¬ s.Fatal) (hp : ∀ s ∈ l, ∀ p ∈ s.parts, p = none) :
    ∀ c ∈ (loadAll l).calls, c.2 = none := by
  rw [loadAll_eq l h]
  intro c hc
  obtain ⟨s, hs, hc⟩ := List.mem_flatMap.1 hc
  unfold Smp.calls at hc
  rcases List.mem_append.1 hc with hc | hc
  · obtain ⟨p, h1, h2⟩ := List.mem_filterMap.1 hc
    rw [hp s hs p h1] at h2
    cases h2
  · rcases hl : s.load with _ | _ | (e | _) <;> rw [hl] at hc <;> simp at hc
    rw [hc]

example : loadAll [⟨"a/1", [none, some (.error 3)], .ok⟩, ⟨"a/2", [none], .fault (.error 7)⟩, ⟨"a/3", [none], .skip⟩, ⟨"a/4", [], .ok⟩] =
    ⟨[(3, some "a/1"), (7, none)], [⟨"a/1", [none, some (.error 3)], .ok⟩, ⟨"a/4", [], .ok⟩], false⟩ := by decide +kernel

/-- **C86.** The key `error_handler` passes on for the kinds of samples it looks into: that of a dict or of a sample, and for a list the keys of
its elements, separated by commas. -/
theorem C86_key (k : String) (ks : List String) :
    handlerKey (.dict (some k)) = some (some k) ∧ handlerKey (.sample k) = some (some k) ∧
      handlerKey (.list ((k :: ks).map fun k => .dict (some k))) = some (some (",".intercalate (k :: ks))) ∧
      handlerKey (.list ((k :: ks).map .sample)) = some (some (",".intercalate (k :: ks))) := by
  have hj : ∀ (ks : List String) (k : String), joinKeys (k :: ks) = ",".intercalate (k :: ks) := by
    intro ks
    induction ks with
    | nil => intro k; simp [joinKeys, String.intercalate_singleton]
    | cons k' ks ih =>
      intro k
      rw [joinKeys, ih]
      · simp [String.intercalate_cons_cons]
      · simp
  have h1 : ∀ ks : List String, (ks.map fun k => Elem.dict (some k)).mapM (elemKey true) = some ks := by
    intro ks
    induction ks with
    | nil => rfl
    | cons k ks ih => simp [ih, elemKey]
  have h2 : ∀ ks : List String, (ks.map Elem.sample).mapM (elemKey false) = some ks := by
    intro ks
    induction ks with
    | nil => rfl
    | cons k ks ih => simp [ih, elemKey]
  refine ⟨rfl, rfl, ?_, ?_⟩
  · have := h1 (k :: ks)
    simp only [List.map_cons] at this ⊢
    rw [handlerKey, this, Option.map_some, hj]
  · have := h2 (k :: ks)
    simp only [List.map_cons] at this ⊢
    rw [handlerKey, this, Option.map_some, hj]

/-! ## Lint -/

theorem fine_not_fatal {s : Smp} (h : s.Fine) : ¬ s.Fatal := by
  rintro (h1 | h1)
  · cases h.1 _ h1
  · rcases h.2 with h2 | h2 <;> rw [h1] at h2 <;> cases h2

theorem fine_iff (s : Smp) : s.Fine ↔ ¬ s.Fatal ∧ s.calls = [] := by
  constructor
  · intro h
    refine ⟨fine_not_fatal h, ?_⟩
    unfold Smp.calls
    rw [List.append_eq_nil_iff]
    refine ⟨?_, ?_⟩
    · rw [List.filterMap_eq_nil_iff]
      intro p hp
      rw [h.1 p hp]
    · rcases h.2 with h2 | h2 <;> rw [h2]
  · rintro ⟨h1, h2⟩
    unfold Smp.calls at h2
    rw [List.append_eq_nil_iff, List.filterMap_eq_nil_iff] at h2
    refine ⟨fun p hp => ?_, ?_⟩
    · have := h2.1 p hp
      rcases p with _ | (e | _)
      · rfl
      · cases this
      · exact absurd (.inl hp) h1
    · rcases hl : s.load with _ | _ | (e | _)
      · exact .inl rfl
      · exact .inr rfl
      · rw [hl] at h2; cases h2.2
      · exact absurd (.inr hl) h1

theorem checkShards_ok (index : String → Option Nat) (l : List (String × Nat)) :
    checkShards index l = some true ↔ ∀ c ∈ l, index c.1 = some (c.2 + 1) := by
  induction l with
  | nil => simp [checkShards]
  | cons c l ih =>
    obtain ⟨name, count⟩ := c
    simp only [checkShards, List.mem_cons, forall_eq_or_imp]
    rw [← ih]
    cases index name with
    | none => simp
    | some n =>
      simp only [Option.some.injEq]
      cases checkShards index l with
      | none => simp
      | some b =>
        simp only [Option.map_some, Option.some.injEq, Bool.and_eq_true, beq_iff_eq]
        refine and_congr_left fun _ => ?_
        omega

theorem checkIndex_ok (d : Disk) : checkIndex d = some true ↔ d.isDir = true ∧ IndexOk d := by
  unfold checkIndex IndexOk
  cases d.isDir
  · simp
  · simp [checkShards_ok]

theorem lint_ok (d : Disk) (deal : Nat → List Smp → List (List Smp)) (n : Nat) (sps : List String) :
    lint d deal n sps = .ok ↔ d.isDir = true ∧ IndexOk d ∧ lintSplits d deal n sps (fun _ => ⟨false, []⟩) = .ok := by
  rw [← and_assoc, ← checkIndex_ok]
  unfold lint
  rcases checkIndex d with _ | (_ | _) <;> simp

theorem handle_foldl (cs : List Call) (m : Mem) :
    cs.foldl Mem.handle m = ⟨m.failed || !cs.isEmpty, m.ignored ++ cs.flatMap fun c => c.2.toList⟩ := by
  induction cs generalizing m with
  | nil => simp
  | cons c cs ih => simp [ih, Mem.handle, List.append_assoc]

theorem workers_main (ls : List (List Smp)) (w : Nat) (ps : Procs) :
    (workers w ls ps).1 0 = ps 0 ∧ ((workers w ls ps).2 = true ↔ ∃ l ∈ ls, ∃ s ∈ l, s.Fatal) := by
  induction ls generalizing w ps with
  | nil => simp [workers]
  | cons l ls ih =>
    obtain ⟨h1, h2⟩ := ih (w + 1) (ps.handle (w + 1) (loadAll l).calls)
    refine ⟨?_, ?_⟩
    · show (workers (w + 1) ls _).1 0 = _
      rw [h1]
      simp [Procs.handle]
    · show ((loadAll l).fatal || (workers (w + 1) ls _).2) = true ↔ _
      rw [Bool.or_eq_true, h2, loadAll_fatal]
      simp

/-- With worker processes the variables of the main process stay as they are. -/
theorem runSplit_workers (deal : Nat → List Smp → List (List Smp)) (hd : Deals deal) (n : Nat) (hn : 0 < n) (l : List Smp) (ps : Procs) :
    (runSplit deal n l ps).1 0 = ps 0 ∧ ((runSplit deal n l ps).2 = true ↔ ∃ s ∈ l, s.Fatal) := by
  unfold runSplit
  rw [if_neg (by omega)]
  obtain ⟨h1, h2⟩ := workers_main (deal n l) 0 ps.fork
  refine ⟨h1, h2.trans ?_⟩
  have : ∀ s, s ∈ l ↔ ∃ m ∈ deal n l, s ∈ m := by
    intro s
    rw [← (hd n l hn).mem_iff, List.mem_flatten]
  constructor
  · rintro ⟨m, hm, s, hs, hf⟩
    exact ⟨s, (this s).2 ⟨m, hm, hs⟩, hf⟩
  · rintro ⟨s, hs, hf⟩
    obtain ⟨m, hm, h⟩ := (this s).1 hs
    exact ⟨m, hm, s, h, hf⟩

theorem runSplit_main (deal : Nat → List Smp → List (List Smp)) (l : List Smp) (ps : Procs) :
    (runSplit deal 0 l ps).1 0 = (loadAll l).calls.foldl Mem.handle (ps 0) ∧ ((runSplit deal 0 l ps).2 = true ↔ ∃ s ∈ l, s.Fatal) := by
  unfold runSplit
  rw [if_pos rfl]
  exact ⟨by simp [Procs.handle], loadAll_fatal l⟩

theorem splits_workers (d : Disk) (deal : Nat → List Smp → List (List Smp)) (hd : Deals deal) (n : Nat) (hn : 0 < n) (sps : List String) (ps : Procs) :
    lintSplits d deal n sps ps = .ok ↔ (ps 0).failed = false ∧ ∀ sp ∈ sps, ∃ l, d.split sp = .shards l ∧ ∀ s ∈ l, ¬ s.Fatal := by
  induction sps generalizing ps with
  | nil => cases h : (ps 0).failed <;> simp [lintSplits, h]
  | cons sp sps ih =>
    simp only [lintSplits, List.mem_cons, forall_eq_or_imp]
    cases hs : d.split sp with
    | missing => simp
    | noShards => simp
    | shards l =>
      obtain ⟨h1, h2⟩ := runSplit_workers deal hd n hn l ps
      rcases hr : runSplit deal n l ps with ⟨ps', b⟩
      rw [hr] at h1 h2
      simp only at h1 h2
      cases b
      · simp only [hr]
        rw [ih, h1]
        have : ∀ s ∈ l, ¬ s.Fatal := fun s hs hf => by simpa using h2.2 ⟨s, hs, hf⟩
        simp only [Split.shards.injEq, exists_eq_left']
        exact ⟨fun h => ⟨h.1, this, h.2⟩, fun h => ⟨h.1, h.2.2⟩⟩
      · obtain ⟨s, hs, hf⟩ := h2.1 rfl
        simp only [hr, Split.shards.injEq, exists_eq_left', reduceCtorEq, false_iff, not_and]
        intro _ h
        exact absurd hf (h s hs)

theorem splits_main (d : Disk) (deal : Nat → List Smp → List (List Smp)) (sps : List String) (ps : Procs) :
    lintSplits d deal 0 sps ps = .ok ↔ (ps 0).failed = false ∧ ∀ sp ∈ sps, ∃ l, d.split sp = .shards l ∧ ∀ s ∈ l, s.Fine := by
  induction sps generalizing ps with
  | nil => cases h : (ps 0).failed <;> simp [lintSplits, h]
  | cons sp sps ih =>
    simp only [lintSplits, List.mem_cons, forall_eq_or_imp]
    cases hs : d.split sp with
    | missing => simp
    | noShards => simp
    | shards l =>
      obtain ⟨h1, h2⟩ := runSplit_main deal l ps
      rcases hr : runSplit deal 0 l ps with ⟨ps', b⟩
      rw [hr] at h1 h2
      simp only at h1 h2
      simp only [Split.shards.injEq, exists_eq_left']
      cases b
      · simp only [hr]
        have hnf : ∀ s ∈ l, ¬ s.Fatal := fun s hs hf => by simpa using h2.2 ⟨s, hs, hf⟩
        rw [ih, h1, handle_foldl, loadAll_eq l hnf]
        simp only [Bool.or_eq_false_iff, Bool.not_eq_false', List.isEmpty_iff, List.flatMap_eq_nil_iff]
        constructor
        · rintro ⟨⟨h3, h4⟩, h5⟩
          exact ⟨h3, fun s hs => (fine_iff s).2 ⟨hnf s hs, h4 s hs⟩, h5⟩
        · rintro ⟨h3, h4, h5⟩
          exact ⟨⟨h3, fun s hs => ((fine_iff s).1 (h4 s hs)).2⟩, h5⟩
      · obtain ⟨s, hs, hf⟩ := h2.1 rfl
        simp only [hr, reduceCtorEq, false_iff, not_and]
        intro _ h
        exact absurd hf (fine_not_fatal (h s hs))

/-- **C85, the part that holds, without worker processes**: `lint` succeeds exactly if the dataset is without faults, if no part of the split is
empty. What is missing: worker processes (`C85_violated`, and that is the default), empty parts (`C85_violated_empty`). -/
theorem C85_serial_partial (d : Disk) (deal : Nat → List Smp → List (List Smp)) (sps : List String) (hdir : d.isDir = true)
    (hne : NonEmpty d sps) : lint d deal 0 sps = .ok ↔ Healthy d sps := by
  rw [lint_ok, splits_main]
  constructor
  · rintro ⟨_, h1, _, h2⟩
    exact ⟨h1, fun sp hsp => .inr (h2 sp hsp)⟩
  · rintro ⟨h1, h2⟩
    refine ⟨hdir, h1, rfl, fun sp hsp => ?_⟩
    rcases h2 sp hsp with h3 | h3
    · obtain ⟨l, h4⟩ := hne sp hsp
      rw [h3] at h4; cases h4
    · exact h3

/-- **C85.** With worker processes `lint` succeeds exactly if the index is right and nothing raises an exception that is never handled: other failures
of samples are not noticed. -/
theorem C85_workers (d : Disk) (deal : Nat → List Smp → List (List Smp)) (hd : Deals deal) (n : Nat) (hn : 0 < n) (sps : List String) (hdir : d.isDir = true)
    (hne : NonEmpty d sps) :
    lint d deal n sps = .ok ↔ IndexOk d ∧ ∀ sp ∈ sps, ∀ l, d.split sp = .shards l → ∀ s ∈ l, ¬ s.Fatal := by
  rw [lint_ok, splits_workers d deal hd n hn]
  constructor
  · rintro ⟨_, h1, _, h2⟩
    refine ⟨h1, fun sp hsp l hl => ?_⟩
    obtain ⟨l', h3, h4⟩ := h2 sp hsp
    rw [h3] at hl
    cases hl
    exact h4
  · rintro ⟨h1, h2⟩
    refine ⟨hdir, h1, rfl, fun sp hsp => ?_⟩
    obtain ⟨l, hl⟩ := hne sp hsp
    exact ⟨l, hl, h2 sp hsp l hl⟩

/-- **C85.** No false alarm, with every number of worker processes. -/
theorem C85_healthy (d : Disk) (deal : Nat → List Smp → List (List Smp)) (hd : Deals deal) (n : Nat) (sps : List String) (hdir : d.isDir = true)
    (hne : NonEmpty d sps) (h : Healthy d sps) : lint d deal n sps = .ok := by
  rcases Nat.eq_zero_or_pos n with rfl | hn
  · exact (C85_serial_partial d deal sps hdir hne).2 h
  · refine (C85_workers d deal hd n hn sps hdir hne).2 ⟨h.1, fun sp hsp l hl s hs => ?_⟩
    rcases h.2 sp hsp with h1 | ⟨l', h1, h2⟩
    · rw [hl] at h1; cases h1
    · rw [hl] at h1; cases h1
      exact fine_not_fatal (h2 s hs)

/-- **C85.** A shard with another number of samples in the index than in the metadata is always noticed. -/
theorem C85_index (d : Disk) (deal : Nat → List Smp → List (List Smp)) (n : Nat) (sps : List String) (h : lint d deal n sps = .ok) : IndexOk d :=
  ((lint_ok d deal n sps).1 h).2.1

/-- The dataset of the examples: three samples, the second cannot be loaded -/
def exDisk : Disk where
  isDir := true
  counts := [("s.tar", 3)]
  index := fun n => if n = "s.tar" then some 4 else none
  split := fun n => if n = "train" then .shards [⟨"s.tar/1", [none, none], .ok⟩, ⟨"s.tar/2", [none], .fault (.error 7)⟩, ⟨"s.tar/3", [none], .ok⟩]
    else if n = "val" then .noShards else .missing

/-- One worker gets everything -/
def exDeal (_ : Nat) (l : List Smp) : List (List Smp) := [l]

theorem exDeal_deals : Deals exDeal := fun _ l _ => by simp [exDeal]

/-- **C85 is violated** with worker processes, whatever their number: the failing sample is not noticed. -/
theorem C85_violated : ¬ C85_statement := by
  intro h
  have h1 : lint exDisk exDeal 1 ["train"] = .ok := by decide +kernel
  obtain ⟨-, h2⟩ := (h exDisk exDeal 1 ["train"] exDeal_deals rfl).1 h1
  rcases h2 "train" (by simp) with h3 | ⟨l, h3, h4⟩
  · simp [exDisk] at h3
  · simp only [exDisk, if_true, Split.shards.injEq] at h3
    subst h3
    have := (h4 ⟨"s.tar/2", [none], .fault (.error 7)⟩ (by simp)).2
    simp at this

theorem splits_no (d : Disk) (deal : Nat → List Smp → List (List Smp)) (n : Nat) (sps : List String) (sp : String) (hsp : sp ∈ sps)
    (h : d.split sp = .noShards) (ps : Procs) : lintSplits d deal n sps ps ≠ .ok := by
  induction sps generalizing ps with
  | nil => cases hsp
  | cons a sps ih =>
    cases ha : d.split a with
    | missing => simp [lintSplits, ha]
    | noShards => simp [lintSplits, ha]
    | shards l =>
      have hne : sp ≠ a := fun he => by rw [he, ha] at h; cases h
      have hm : sp ∈ sps := by
        rcases List.mem_cons.1 hsp with h2 | h2
        · exact absurd h2 hne
        · exact h2
      rcases hr : runSplit deal n l ps with ⟨ps', b⟩
      cases b
      · simpa [lintSplits, ha, hr] using ih hm ps'
      · simp [lintSplits, ha, hr]

/-- **C85 is violated** by a part without shards: `lint` ends with an exception instead of leaving it out. -/
theorem C85_violated_empty (d : Disk) (deal : Nat → List Smp → List (List Smp)) (n : Nat) (sps : List String) (sp : String) (hsp : sp ∈ sps)
    (h : d.split sp = .noShards) : lint d deal n sps ≠ .ok :=
  fun hok => splits_no d deal n sps sp hsp h _ ((lint_ok d deal n sps).1 hok).2.2

/-- A metadataset (a file) is never accepted. -/
theorem C85_violated_file (d : Disk) (deal : Nat → List Smp → List (List Smp)) (n : Nat) (sps : List String) (h : d.isDir = false) :
    lint d deal n sps = .failed [] := by
  simp [lint, checkIndex, h]

/-- Without worker processes the fault is noticed, but the failing sample is not listed. -/
example : lint exDisk exDeal 0 ["train"] = .failed [] ∧ lint exDisk exDeal 4 ["train"] = .ok ∧ lint exDisk exDeal 0 ["val"] = .crash := by decide +kernel

/-- A failing file is listed with its sample. -/
example : lint { exDisk with split := fun _ => .shards [⟨"s.tar/1", [some (.error 1), none], .ok⟩] } exDeal 0 ["train", "val"] =
    .failed ["s.tar/1", "s.tar/1"] := by decide +kernel

/-- The hypotheses of the theorems are met. -/
example : NonEmpty exDisk ["train"] ∧ IndexOk exDisk ∧ exDisk.isDir = true := by
  refine ⟨fun sp h => ?_, fun c hc => ?_, rfl⟩
  · simp only [List.mem_singleton] at h
    subst h
    exact ⟨_, rfl⟩
  · simp only [exDisk, List.mem_singleton] at hc
    subst hc
    rfl

end Verif.Lint
