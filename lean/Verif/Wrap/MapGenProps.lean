import Verif.Wrap.MapGenModel
import Verif.Wrap.PackProps
import Verif.Stream.Lockstep

/-! # C14, C34: mapping with a generator function -/

namespace Verif.Stream

variable {σ κ C C' : Type}

/-! ## Specification -/

/-- The samples made of the source sample `a` with sample index `k`, in order, with their restore keys. -/
def genOut (f : GenFn C C') (k : Nat) (a : Smp C) : List (Smp C') :=
  (f k a).1.mapIdx fun j c => ⟨c, .str "MapDataset" :: .num k :: .num j :: a.key⟩

/-- The samples made of the source samples `xs`, the first of which gets sample index `k`. -/
def genOuts (f : GenFn C C') : Nat → List (Smp C) → List (Smp C')
  | _, [] => []
  | k, a :: xs => genOut f k a ++ genOuts f (k + 1) xs

/-! ## What is delivered -/

theorem mapGen_noReset {D : Dataset σ (Smp C) κ} {f : GenFn C C'} {st : Bool} : (mapGenW D f st).NoReset := by
  rintro ⟨n, g, c⟩ x' h
  cases c with
  | start =>
    cases g with
    | none => simp only [mapGenW] at h; cases h
    | some g =>
      simp only [mapGenW] at h
      split at h <;> cases h
  | loop => simp only [mapGenW] at h; cases h
  | got a => simp only [mapGenW] at h; cases h
  | group res k j key rest e =>
    cases rest with
    | cons c cs => simp only [mapGenW] at h; cases h
    | nil =>
      cases e with
      | done => simp only [mapGenW] at h; cases h
      | skip => simp only [mapGenW] at h; split at h <;> cases h
      | fatal => simp only [mapGenW] at h; cases h
  | done => simp only [mapGenW] at h; cases h

private theorem mapIdx_shift {α β : Type} (g : Nat → α → β) (c : α) (cs : List α) (j : Nat) :
    (c :: cs).mapIdx (fun i => g (j + i)) = g j c :: cs.mapIdx fun i => g (j + 1 + i) := by
  rw [List.mapIdx_cons]
  simp only [Nat.add_zero, Nat.add_comm 1, Nat.add_assoc]

theorem genGroup_trans (D : Dataset σ (Smp C) κ) (f : GenFn C C') (st : Bool) (res : Bool) (n k : Nat)
    (gk key : List Key) (e : FinalEnd) (rest : List C') : ∀ (j : Nat),
    (mapGenW D f st).Trans ⟨n, some (gk, j), .group res k j key rest e⟩ []
      ((rest.mapIdx fun i c => (⟨c, .str "MapDataset" :: .num k :: .num (j + i) :: key⟩ : Smp C')).map .item)
      ⟨n, some (gk, j + rest.length), .group res k (j + rest.length) key [] e⟩ := by
  induction rest with
  | nil => intro j; exact .nil
  | cons c cs ih =>
    intro j
    rw [mapIdx_shift (fun i c => (⟨c, .str "MapDataset" :: .num k :: .num i :: key⟩ : Smp C'))]
    refine .emit (W := mapGenW D f st) (x := ⟨n, some (gk, j), .group res k j key (c :: cs) e⟩)
      (x' := ⟨n, some (gk, j + 1), .group res k (j + 1) key cs e⟩) rfl ?_
    have := ih (j + 1)
    rw [Nat.add_right_comm, Nat.add_assoc] at this
    exact this

/-- What is left of the generator of the last group. -/
def genLeft (f : GenFn C C') : Nat → List (Smp C) → Option (List Key × Nat) → Option (List Key × Nat)
  | _, [], g => g
  | k, a :: xs, _ => genLeft f (k + 1) xs (if (f k a).2 = .skip then some (a.key, (f k a).1.length) else none)

theorem gen_trans (D : Dataset σ (Smp C) κ) (f : GenFn C C') (st : Bool) (hf : ∀ i a, (f i a).2 ≠ .fatal)
    (xs : List (Smp C)) : ∀ (k : Nat) (g : Option (List Key × Nat)),
    (mapGenW D f st).Trans ⟨k, g, .loop⟩ (xs.map .item) ((genOuts f k xs).map .item)
      ⟨k + xs.length, genLeft f k xs g, .loop⟩ := by
  induction xs with
  | nil => intro k g; exact .nil
  | cons a xs ih =>
    intro k g
    have h1 : (mapGenW D f st).Trans ⟨k, g, .loop⟩ [.item a] []
        ⟨k + 1, some (a.key, 0), .group false k 0 a.key (f k a).1 (f k a).2⟩ :=
      .pullItem (W := mapGenW D f st) (x := ⟨k, g, .loop⟩) rfl
        (.tau (W := mapGenW D f st) (x := ⟨k, g, .got a⟩) rfl .nil)
    have h2 := genGroup_trans D f st false (k + 1) k a.key a.key (f k a).2 (f k a).1 0
    have h3 : (mapGenW D f st).Trans
        ⟨k + 1, some (a.key, 0 + (f k a).1.length), .group false k (0 + (f k a).1.length) a.key [] (f k a).2⟩ [] []
        ⟨k + 1, if (f k a).2 = .skip then some (a.key, (f k a).1.length) else none, .loop⟩ := by
      rw [Nat.zero_add]
      cases he : (f k a).2 with
      | done => exact .tau (W := mapGenW D f st) (by rfl) .nil
      | skip => exact .tau (W := mapGenW D f st) (by rfl) .nil
      | fatal => exact absurd he (hf k a)
    have h4 := ((h1.append h2).append h3).append (ih (k + 1) _)
    rw [List.nil_append, List.append_nil, List.append_nil, List.append_nil, ← List.map_append] at h4
    have e1 : k + 1 + xs.length = k + (a :: xs).length := by simp; omega
    rw [e1] at h4
    simpa [genOuts, genOut, genLeft] using h4

/-- A pass over the source samples `xs` delivers, for one source sample after the other, what the generator function
yields for it, until it ends or raises `SkipSample`. Hypotheses: no fatal error; the generator made of the last source
sample of the previous pass has not been ended by an exception (`gen = none`; see `C14_violated_next_pass`). -/
theorem C14_generator_pass (D : Dataset σ (Smp C) κ) (f : GenFn C C') (st : Bool) (hf : ∀ i a, (f i a).2 ≠ .fatal)
    (xs : List (Smp C)) (s s' : σ) (hs : D.Pass s xs s') (k : Nat) :
    ∃ g, (mapGenD D f st).Pass (s, ⟨k, none, .start⟩) (genOuts f k xs) (s', ⟨k + xs.length, g, .start⟩) ∧
      ((∀ i a, (f i a).2 ≠ .skip) → g = none) := by
  refine ⟨genLeft f k xs none, ?_, ?_⟩
  · have h1 : (mapGenW D f st).Trans ⟨k, none, .start⟩ [] [] ⟨k, none, .loop⟩ :=
      .tau (W := mapGenW D f st) (by rfl) .nil
    have h2 : (mapGenW D f st).Trans ⟨k + xs.length, genLeft f k xs none, .loop⟩ [.fin] []
        ⟨k + xs.length, genLeft f k xs none, .done⟩ :=
      .pullFin (W := mapGenW D f st) (x := ⟨k + xs.length, genLeft f k xs none, .loop⟩) (by rfl) .nil
    have h3 := (h1.append (gen_trans D f st hf xs k none)).append h2
    rw [List.append_nil, List.nil_append, List.nil_append] at h3
    exact h3.run_halt (D := D) (by rfl) hs
  · intro h
    have : ∀ (xs : List (Smp C)) k, genLeft f k xs none = none := by
      intro xs
      induction xs with
      | nil => intro k; rfl
      | cons a xs ih => intro k; simp only [genLeft, h, if_false]; exact ih _
    exact this xs k

/-- The same for every prefix of the source (also of an endless one). -/
theorem C14_generator_items (D : Dataset σ (Smp C) κ) (f : GenFn C C') (st : Bool) (hf : ∀ i a, (f i a).2 ≠ .fatal)
    (xs : List (Smp C)) (s s' : σ) (hs : D.Items s xs s') (k : Nat) :
    ∃ q, (mapGenD D f st).Items (s, ⟨k, none, .start⟩) (genOuts f k xs) q := by
  have h1 : (mapGenW D f st).Trans ⟨k, none, .start⟩ [] [] ⟨k, none, .loop⟩ :=
    .tau (W := mapGenW D f st) (by rfl) .nil
  have h3 := h1.append (gen_trans D f st hf xs k none)
  exact h3.run_some (D := D) hs

/-- A generator function for examples: `n` gives `10n, 10n+1, 10n+2`, each plus 100 times the sample index; 7 gives one
sample and then raises `SkipSample`. -/
def three : GenFn Nat Nat := fun k a =>
  if a.content = 7 then ([70 + 100 * k], .skip)
  else ([10 * a.content + 100 * k, 10 * a.content + 1 + 100 * k, 10 * a.content + 2 + 100 * k], .done)

example : ((mapGenD (listD [1, 7, 2]) three true).eval 60 (mapGenD (listD [1, 7, 2]) three true).init).take 8
    = [.item ⟨10, [.str "MapDataset", .num 0, .num 0, .num 0]⟩, .item ⟨11, [.str "MapDataset", .num 0, .num 1, .num 0]⟩,
       .item ⟨12, [.str "MapDataset", .num 0, .num 2, .num 0]⟩, .item ⟨170, [.str "MapDataset", .num 1, .num 0, .num 1]⟩,
       .item ⟨220, [.str "MapDataset", .num 2, .num 0, .num 2]⟩, .item ⟨221, [.str "MapDataset", .num 2, .num 1, .num 2]⟩,
       .item ⟨222, [.str "MapDataset", .num 2, .num 2, .num 2]⟩, .fin] := by decide +kernel

/-! ## Invariants -/

private structure GenJ (Y : Smp C → Prop) (f : GenFn C C') (x : GenX C C') : Prop where
  gen : ∀ key j, x.gen = some (key, j) → ∃ a, Y a ∧ a.key = key
  got : ∀ a, x.ctl = .got a → Y a
  group : ∀ res k j key rest e, x.ctl = .group res k j key rest e → ∃ a, Y a ∧ a.key = key ∧
    (f k a).1.drop j = rest ∧ (f k a).2 = e ∧ ∃ j', x.gen = some (key, j')

private def GenQ (Y : Smp C → Prop) (f : GenFn C C') (x : GenX C C') : Prop :=
  GenJ Y f x ∧ (x.ctl = .start ∨ ∃ res k j key rest e, x.ctl = .group res k j key rest e ∧ x.gen = some (key, j))

private theorem gen_inv (D : Dataset σ (Smp C) κ) (f : GenFn C C') (st r : Bool) (hR : D.RestoresSamples r) :
    WInv (Source.single D) (mapGenW D f st) (D.Paused r) (GenJ (D.Yields r) f) (GenQ (D.Yields r) f) := by
  refine WInv.ofInv mapGen_noReset (fun _ h => h.1) ?_
  rintro ⟨n, g, c⟩ hx
  cases c with
  | start =>
    cases g with
    | none => exact ⟨hx.gen, (by intro _ h; cases h), (by intro _ _ _ _ _ _ h; cases h)⟩
    | some g =>
      obtain ⟨key, off⟩ := g
      obtain ⟨a, ha, hk⟩ := hx.gen key off rfl
      have hra : D.restoreSample key = some a := by
        obtain ⟨s, s', h1, h2⟩ := ha
        rw [← hk]; exact hR s a s' h1 h2
      simp only [mapGenW, hra]
      refine ⟨?_, (by intro _ h; cases h), ?_⟩
      · intro key' j h; cases h; exact ⟨a, ha, hk⟩
      · intro res k j key' rest e h; cases h
        exact ⟨a, ha, rfl, rfl, rfl, 0, by rw [hk]⟩
  | loop =>
    refine ⟨fun a ha => ⟨hx.gen, ?_, (by intro _ _ _ _ _ _ h; cases h)⟩,
      fun _ => ⟨hx.gen, (by intro _ h; cases h), (by intro _ _ _ _ _ _ h; cases h)⟩⟩
    intro b h; cases h; exact ha
  | got a =>
    have ha := hx.got a rfl
    refine ⟨?_, (by intro _ h; cases h), ?_⟩
    · intro key j h; cases h; exact ⟨a, ha, rfl⟩
    · intro res k j key rest e h; cases h; exact ⟨a, ha, rfl, rfl, rfl, 0, rfl⟩
  | group res k j key rest e =>
    obtain ⟨a, ha, hk, h1, h2, j', hg⟩ := hx.group _ _ _ _ _ _ rfl
    simp only at hg
    subst hg
    cases rest with
    | cons c cs =>
      simp only [mapGenW, Option.map_some]
      refine ⟨⟨?_, (by intro _ h; cases h), ?_⟩, .inr ⟨_, _, _, _, _, _, rfl, rfl⟩⟩
      · intro key' j h; cases h; exact ⟨a, ha, hk⟩
      · intro res k' j' key rest e h; cases h
        refine ⟨a, ha, hk, ?_, h2, _, rfl⟩
        rw [← List.drop_drop, h1, List.drop_one, List.tail_cons]
    | nil =>
      cases e with
      | done => exact ⟨(by intro _ _ h; cases h), (by intro _ h; cases h), (by intro _ _ _ _ _ _ h; cases h)⟩
      | skip =>
        simp only [mapGenW]
        split
        · trivial
        · exact ⟨hx.gen, (by intro _ h; cases h), (by intro _ _ _ _ _ _ h; cases h)⟩
      | fatal => trivial
  | done => exact ⟨⟨hx.gen, (by intro _ h; cases h), (by intro _ _ _ _ _ _ h; cases h)⟩, .inl rfl⟩

private theorem genQ_init (Y : Smp C → Prop) (f : GenFn C C') (n : Nat) : GenQ Y f ⟨n, none, .start⟩ :=
  ⟨⟨(by intro _ _ h; cases h), (by intro _ h; cases h), (by intro _ _ _ _ _ _ h; cases h)⟩, .inl rfl⟩

private theorem genQ_resume (Y : Smp C → Prop) (D : Dataset σ (Smp C) κ) (f : GenFn C C') (st : Bool) (x : GenX C C')
    (h : GenQ Y f x) : GenQ Y f ((mapGenW D f st).resume ((mapGenW D f st).save x)) :=
  ⟨⟨h.1.gen, (by intro _ h; cases h), (by intro _ _ _ _ _ _ h; cases h)⟩, .inl rfl⟩

/-! ## C34: restore keys -/

/-- Samples made by a (stateless) generator function are restored from their keys, also those delivered after
resuming. -/
theorem C34_map_generator (D : Dataset σ (Smp C) κ) (f : GenFn C C') (r : Bool) (hR : D.RestoresSamples r) :
    (mapGenD D f true).RestoresSamples r := by
  rintro ⟨s, x⟩ b q hp h
  obtain ⟨h1, h2⟩ := wrap_paused (gen_inv D f true r hR) (genQ_init _ _ _) (genQ_resume _ D f true)
    (fun _ _ _ => genQ_init _ _ _) hp
  refine WObs.emits (gen_inv D f true r hR) (Z := fun b => (mapGenD D f true).restoreSample b.key = some b) ?_
    (wrap_obs.1 h) h1 h2.1
  rintro ⟨n, g, c⟩ b x' hx h
  cases c with
  | start =>
    cases g with
    | none => simp only [mapGenW] at h; cases h
    | some g => simp only [mapGenW] at h; split at h <;> cases h
  | loop => simp only [mapGenW] at h; cases h
  | got a => simp only [mapGenW] at h; cases h
  | group res k j key rest e =>
    obtain ⟨a, ha, hk, h1, h2, j', hg⟩ := hx.group _ _ _ _ _ _ rfl
    cases rest with
    | cons c cs =>
      simp only [mapGenW] at h
      cases h
      have hra : D.restoreSample key = some a := by
        obtain ⟨s, s', h1, h2⟩ := ha
        rw [← hk]; exact hR s a s' h1 h2
      have hc : (f k a).1[j]? = some c := by
        rw [← List.head?_drop, h1]; rfl
      simp [mapGenD, wrap, mapGenW, Smp.addKey, hra, hc, hk]
    | nil =>
      cases e with
      | done => simp only [mapGenW] at h; cases h
      | skip => simp only [mapGenW] at h; split at h <;> cases h
      | fatal => simp only [mapGenW] at h; cases h
  | done => simp only [mapGenW] at h; cases h

example : (mapGenD (listD [1, 7, 2]) three true).RestoresSamples :=
  C34_map_generator _ _ _ (listD_restores _ _)

/-! ## C14: resuming -/

/-- States that show the same contents. -/
private def GenR (x y : GenX C C') : Prop :=
  x = y ∨ ∃ n res res' k k' j key key' gk g g' rest e, e ≠ FinalEnd.skip ∧
    x = ⟨n, some (gk, g), .group res k j key rest e⟩ ∧ y = ⟨n, some (gk, g'), .group res' k' j key' rest e⟩

private theorem genR_act (D : Dataset σ (Smp C) κ) (f : GenFn C C') (st : Bool) (x y : GenX C C') (h : GenR x y) :
    Act.Rel GenR (((mapGenW D f st).mapOut (·.content)).act x) (((mapGenW D f st).mapOut (·.content)).act y) := by
  rcases h with rfl | ⟨n, res, res', k, k', j, key, key', gk, g, g', rest, e, he, rfl, rfl⟩
  · generalize ((mapGenW D f st).mapOut (·.content)).act x = a
    cases a with
    | emit => exact .emit (.inl rfl)
    | halt => exact .halt (.inl rfl)
    | tau => exact .tau (.inl rfl)
    | pull => exact .pull (fun _ => .inl rfl) (.inl rfl)
    | reset => exact .reset (.inl rfl)
    | raise => exact .raise
  · cases rest with
    | cons c cs => exact .emit (.inr ⟨n, res, res', k, k', j + 1, key, key', gk, j + 1, j + 1, cs, e, he, rfl, rfl⟩)
    | nil =>
      cases e with
      | done => exact .tau (.inl rfl)
      | skip => exact absurd rfl he
      | fatal => exact .raise

/-- If the generator function does not look at the sample index, and no generator ends by an exception that is handled,
then the contents of the samples are the same as in the uninterrupted run. (The restore keys are not, and a function
that looks at the index or raises `SkipSample` is not resumed: see the counterexamples below.) -/
theorem C14_generator_resumes_partial (D : Dataset σ (Smp C) κ) (f : GenFn C C') (st : Bool)
    (hidx : ∀ i i' a, f i a = f i' a) (hskip : ∀ i a, (f i a).2 ≠ .skip) (r : Bool)
    (hD : D.ResumesExactly r) (hR : D.RestoresSamples r) : (mapGenD D f st).contents.ResumesExactly r := by
  intro p hp
  rw [Dataset.contents, paused_mapOut] at hp
  obtain ⟨h1, h2⟩ := wrap_paused (gen_inv D f st r hR) (genQ_init _ _ _) (genQ_resume _ D f st)
    (fun _ _ _ => genQ_init _ _ _) hp
  obtain ⟨s, x⟩ := p
  have e0 : (mapGenD D f st).contents = wrap D ((mapGenW D f st).mapOut (·.content)) := wrap_mapOut
  rw [e0]
  have hnr : ((mapGenW D f st).mapOut (·.content)).NoReset := by
    intro x x' h
    simp only [Wrapper.mapOut] at h
    cases ha : (mapGenW D f st).act x <;> rw [ha] at h <;> cases h
    exact mapGen_noReset _ _ ha
  refine Dataset.Equiv.trans ?_ (wrap_equiv hnr (hD s h1) _)
  obtain ⟨n, g, c⟩ := x
  obtain ⟨h2, h3⟩ := h2
  rcases h3 with h3 | ⟨res, k, j, key, rest, e, h3, h4⟩
  · simp only at h3
    subst h3
    exact .refl _
  · simp only at h3 h4
    subst h3 h4
    obtain ⟨a, ha, hk, h5, h6, _⟩ := h2.group _ _ _ _ _ _ rfl
    have hra : D.restoreSample key = some a := by
      obtain ⟨s, s', h1, h2⟩ := ha
      rw [← hk]; exact hR s a s' h1 h2
    have hact : ((mapGenW D f st).mapOut (·.content)).act ⟨n, some (key, j), .start⟩ =
        .tau ⟨n, some (key, 0), .group true n j a.key ((f n a).1.drop j) (f n a).2⟩ := by
      simp only [Wrapper.mapOut, mapGenW, hra, Act.mapB]
    refine Dataset.Equiv.trans ?_ (wrap_equiv_tau hact).symm
    refine wrap_equiv_lockstep (R := GenR) (genR_act D f st) s (.inr ?_)
    rw [hidx n k a, h5, h6]
    exact ⟨n, res, true, k, n, j, key, a.key, key, j, 0, rest, e, h6 ▸ hskip k a, rfl, rfl⟩

/-- Two copies of each sample. -/
def twice : GenFn Nat Nat := fun _ a => ([a.content, a.content], .done)

example : (mapGenD (streamD id) twice true).contents.ResumesExactly :=
  C14_generator_resumes_partial _ _ _ (fun _ _ _ => rfl) (by intro i a; simp [twice]) _ (streamD_resumes _ _)
    (streamD_restores _ _)

/-- C14 is false: saved after the first of three samples of the first group and resumed, the user function is called
with sample index 1 instead of 0. -/
theorem C14_violated_index :
    (listD [1, 2]).ResumesExactly ∧ (listD [1, 2]).RestoresSamples ∧
    ¬ (mapGenD (listD [1, 2]) three true).contents.ResumesExactly ∧
    (∃ p, (mapGenD (listD [1, 2]) three true).Paused false p ∧
      ((mapGenD (listD [1, 2]) three true).contents.eval 20 p).take 1 = [.item 11] ∧
      ((mapGenD (listD [1, 2]) three true).contents.eval 20 ((mapGenD (listD [1, 2]) three true).resume
        ((mapGenD (listD [1, 2]) three true).save p))).take 1 = [.item 111]) := by
  have hp : (mapGenD (listD [1, 2]) three true).Paused false
      (1, ⟨1, some ([.num 0], 1), .group false 0 1 [.num 0] [11, 12] .done⟩) :=
    Dataset.after_paused (n := 30) (k := 1) (by rfl) .init
  refine ⟨listD_resumes _ _, listD_restores _ _, fun h => ?_, _, hp, by decide +kernel, by decide +kernel⟩
  exact Dataset.not_equiv 20 1 (by decide +kernel) (by decide +kernel) (h _ (paused_mapOut.2 hp))

/-- C14 is false, also for functions that do not look at the index: if the generator raises `SkipSample` after some
samples, then in the uninterrupted run the next source sample follows, but a run resumed in this group dies. -/
theorem C14_violated_skip :
    ∃ f : GenFn Nat Nat, (∀ i i' a, f i a = f i' a) ∧
    ∃ p, (mapGenD (listD [1, 2]) f true).Paused false p ∧
      ((mapGenD (listD [1, 2]) f true).contents.eval 20 p).take 1 = [.item 2] ∧
      ((mapGenD (listD [1, 2]) f true).contents.eval 20 ((mapGenD (listD [1, 2]) f true).resume
        ((mapGenD (listD [1, 2]) f true).save p))).take 1 = [.err] := by
  refine ⟨fun _ a => ([a.content], .skip), fun _ _ _ => rfl,
    (1, ⟨1, some ([.num 0], 1), .group false 0 1 [.num 0] [] .skip⟩),
    Dataset.after_paused (n := 30) (k := 1) (by rfl) .init, by decide +kernel, by decide +kernel⟩

/-- Even without saving: if the generator made of the last source sample of a pass raises `SkipSample` (or an exception
that is handled), the next pass begins with this generator again and dies. -/
theorem C14_violated_next_pass :
    ∃ f : GenFn Nat Nat, (∀ i i' a, f i a = f i' a) ∧
      ((mapGenD (listD [1, 2]) f true).contents.eval 40 (mapGenD (listD [1, 2]) f true).init) =
        [.item 1, .item 2, .fin, .err] :=
  ⟨fun _ a => ([a.content], if a.content = 2 then .skip else .done), fun _ _ _ => rfl, by decide +kernel⟩

end Verif.Stream
