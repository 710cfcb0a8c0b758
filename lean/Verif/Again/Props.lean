import Verif.Again.Model
import Verif.Stream.Lockstep
import Verif.Stream.Example
import Verif.Wrap.SimpleLemmas
import Verif.Wrap.LengthLemmas
import Verif.Wrap.BlendLemmas
import Verif.Wrap.BatchLemmas
import Verif.Wds.LoaderProps

/-!
# C93: a state can be restored more than once

A state of a loader without worker processes is restored, iterated for some time, and the same state object is restored again (in a new loader with the same datasets): the
samples are those of the first time. (With workers the object is handed to other processes and stays as it is.)
-/

namespace Verif.Stream

variable {σ α β κ X KX C C' ρ M : Type}

/-- **The specification.** Whatever state was saved, and whatever was delivered after it was restored: restoring the object once more gives what the first restore gave. -/
def Held.RestoresAgain {D : Dataset σ α κ} (h : Held D M) : Prop :=
  ∀ s, D.Paused false s → ∀ evs p, h.watched.Run (D.resume (D.save s), h.start (D.save s)) evs p →
    D.Equiv (D.resume (h.content p.2)) (D.resume (D.save s))

/-- The inductive form: what changes in the object does not matter. -/
def Held.Keeps {D : Dataset σ α κ} (h : Held D M) : Prop :=
  ∃ I : κ → M → Prop, (∀ k, I k (h.start k)) ∧ (∀ k m s s', I k m → I k (h.follow m s s')) ∧ (∀ k m, I k m → I k (h.detach m)) ∧
    ∀ k m, I k m → D.Equiv (D.resume (h.content m)) (D.resume k)

theorem watched_obs {D : Dataset σ α κ} {h : Held D M} {I : M → Prop} (hI : ∀ m s s', I m → I (h.follow m s s')) {p : σ × M} {o : Out (σ × M) α} (ho : Obs h.watched.step p o)
    (hp : I p.2) : (∀ a q, o = .item a q → I q.2) ∧ (∀ q, o = .fin q → I q.2) := by
  induction ho with
  | @item p a q e =>
    refine ⟨fun a' q' e' => ?_, fun q e' => (by cases e')⟩
    cases e'
    cases hs : D.step p.1 <;> simp only [Held.watched, hs] at e <;> cases e
    exact hI _ _ _ hp
  | @fin p q e =>
    refine ⟨fun a' q' e' => (by cases e'), fun q e' => ?_⟩
    cases e'
    cases hs : D.step p.1 <;> simp only [Held.watched, hs] at e <;> cases e
    exact hI _ _ _ hp
  | err => exact ⟨fun a' q' e' => (by cases e'), fun q e' => (by cases e')⟩
  | @skip p q o e _ ih =>
    refine ih ?_
    cases hs : D.step p.1 <;> simp only [Held.watched, hs] at e <;> cases e
    exact hI _ _ _ hp

theorem Held.Keeps.again {D : Dataset σ α κ} {h : Held D M} (hk : h.Keeps) : h.RestoresAgain := by
  obtain ⟨I, h1, h2, _, h4⟩ := hk
  intro s _ evs p hr
  refine h4 _ _ ?_
  have key : ∀ {q evs p}, h.watched.Run q evs p → I (D.save s) q.2 → I (D.save s) p.2 := by
    intro q evs p hr
    induction hr with
    | nil => exact id
    | item ho _ ih => exact fun hq => ih ((watched_obs (h2 _) ho hq).1 _ _ rfl)
    | fin ho _ ih => exact fun hq => ih ((watched_obs (h2 _) ho hq).2 _ rfl)
  exact key hr (h1 _)

/-- A wrapper whose own part of the object may change without effect. -/
theorem Held.Keeps.wrap {D : Dataset σ α κ} {h : Held D M} (hk : h.Keeps) {W : Wrapper Unit α β X KX} (hr : W.NoReset) (o : Own W)
    (ho : ∀ old x s, (Stream.wrap D W).Equiv (s, W.resume (o.share old (W.save x))) (s, W.resume old)) : (h.wrap o).Keeps := by
  obtain ⟨I, h1, h2, h3, h4⟩ := hk
  refine ⟨fun k m => I k.1 m.1 ∧ ∀ s, (Stream.wrap D W).Equiv (s, W.resume m.2.1) (s, W.resume k.2), fun k => ⟨h1 _, fun s => .refl _⟩, ?_, ?_, ?_⟩
  · rintro ⟨k, kx⟩ ⟨m, kx', b⟩ ⟨s, x⟩ ⟨s', x'⟩ ⟨hm, he⟩
    refine ⟨?_, fun t => ?_⟩
    · simp only [Held.wrap]
      cases hx : W.act x with
      | pull i f g => exact h2 _ _ _ _ hm
      | reset y => exact h3 _ _ hm
      | emit => exact hm
      | halt => exact hm
      | tau => exact hm
      | raise => exact hm
    · simp only [Held.wrap, Own.follow]
      split
      · split
        · exact he t
        · exact (ho kx' x' t).trans (he t)
      · exact he t
  · rintro ⟨k, kx⟩ ⟨m, kx', b⟩ ⟨hm, he⟩
    exact ⟨h3 _ _ hm, he⟩
  · rintro ⟨k, kx⟩ ⟨m, kx', b⟩ ⟨hm, he⟩
    exact (wrap_equiv hr (h4 _ _ hm) _).trans (he _)

theorem Held.Keeps.wrapMulti {D : Nat → Dataset σ α κ} {h : ∀ i, Held (D i) M} (hk : ∀ i, (h i).Keeps) {W : Wrapper Nat α β X KX} (hr : W.NoReset) (o : Own W)
    (ho : ∀ old now, o.share old now = old) : (Held.wrapMulti h o).Keeps := by
  refine ⟨fun k m => (∀ i, (hk i).choose (k.1 i) (m.1 i)) ∧ m.2.1 = k.2, fun k => ⟨fun i => (hk i).choose_spec.1 _, rfl⟩, ?_, ?_, ?_⟩
  · rintro ⟨k, kx⟩ ⟨m, kx', b⟩ ⟨s, x⟩ ⟨s', x'⟩ ⟨hm, he⟩
    refine ⟨fun j => ?_, ?_⟩
    · simp only [Held.wrapMulti]
      cases hx : W.act x with
      | pull i f g =>
        simp only [upd]
        split
        · next e => subst e; exact (hk j).choose_spec.2.1 _ _ _ _ (hm j)
        · exact hm j
      | reset y => exact (hk j).choose_spec.2.2.1 _ _ (hm j)
      | emit => exact hm j
      | halt => exact hm j
      | tau => exact hm j
      | raise => exact hm j
    · simp only [Held.wrapMulti, Own.follow, ho]
      split
      · split <;> exact he
      · exact he
  · rintro ⟨k, kx⟩ ⟨m, kx', b⟩ ⟨hm, he⟩
    exact ⟨fun i => (hk i).choose_spec.2.2.1 _ _ (hm i), he⟩
  · rintro ⟨k, kx⟩ ⟨m, kx', b⟩ ⟨hm, he⟩
    cases he
    exact wrapMulti_equiv hr (fun j => (hk j).choose_spec.2.2.2 _ _ (hm j)) _

/-! ## Where it holds -/

/-- If a function of the state determines what happens, states with equal values are indistinguishable. -/
theorem Dataset.Equiv.of_erase {D : Dataset σ α κ} {τ : Type} (e : σ → τ) (h : ∀ s t, e s = e t → (D.step s).mapS e = (D.step t).mapS e) {s t : σ} (hst : e s = e t) :
    D.Equiv s t := by
  have key : Sim D.step D.step (fun s t => e s = e t) := by
    intro s t hst o ho
    induction ho generalizing t with
    | @item s a s' hs =>
      have := h s t hst
      rw [hs] at this
      cases ht : D.step t <;> rw [ht] at this <;> simp only [Step.mapS, Step.yield.injEq, reduceCtorEq] at this
      obtain ⟨rfl, hh⟩ := this
      exact ⟨_, .item ht, .item hh⟩
    | @fin s s' hs =>
      have := h s t hst
      rw [hs] at this
      cases ht : D.step t <;> rw [ht] at this <;> simp only [Step.mapS, Step.stop.injEq, reduceCtorEq] at this
      exact ⟨_, .fin ht, .fin this⟩
    | @err s hs =>
      have := h s t hst
      rw [hs] at this
      cases ht : D.step t <;> rw [ht] at this <;> simp only [Step.mapS] at this <;> cases this
      exact ⟨_, .err ht, .err⟩
    | @skip s s' o hs _ ih =>
      have := h s t hst
      rw [hs] at this
      cases ht : D.step t <;> rw [ht] at this <;> simp only [Step.mapS, Step.skip.injEq, reduceCtorEq] at this
      obtain ⟨o', h1, h2⟩ := ih _ this
      exact ⟨o', .skip ht h1, h2⟩
  refine Dataset.Equiv.of_bisim key ?_ hst
  intro s t hst o ho
  obtain ⟨o', h1, h2⟩ := key s t hst.symm o ho
  exact ⟨o', h1, h2.mono fun _ _ h => h.symm⟩

/-- The counters of the reader have no influence on the samples. -/
theorem loader_counts (R : Wds.WRng ρ) (c : Wds.Cfg C) (restore : List Key → Option (Smp C)) {x y : Wds.LdX C ρ} (hp : x.pending = y.pending) (ha : x.active = y.active)
    (hg : x.rng = y.rng) (hc : x.ctl = y.ctl) : (Wds.loaderD R c restore).Equiv x y := by
  refine Dataset.Equiv.of_erase (fun x : Wds.LdX C ρ => (x.pending, x.active, x.rng, x.ctl)) ?_ (by simp [hp, ha, hg, hc])
  rintro ⟨p, ac, g, n1, n2, n3, ct⟩ ⟨p', ac', g', m1, m2, m3, ct'⟩ h
  simp only [Prod.mk.injEq] at h
  obtain ⟨rfl, rfl, rfl, rfl⟩ := h
  cases ct with
  | fresh => simp only [Wds.loaderD, Wds.ldStep]; split <;> rfl
  | top =>
    simp only [Wds.loaderD, Wds.ldStep]
    split
    · rfl
    · simp only [Wds.newEpoch, Step.mapS]
  | pick =>
    simp only [Wds.loaderD, Wds.ldStep]
    split
    · split <;> rfl
    · generalize hq : Wds.pickIdx R c ⟨p, ac, g, n1, n2, n3, .pick⟩ = q
      have hq' : Wds.pickIdx R c ⟨p, ac, g, m1, m2, m3, .pick⟩ = q := hq
      rw [hq']
      obtain ⟨i, g2⟩ := q
      simp only
      cases ac[i]? with
      | none => rfl
      | some b =>
        cases b with
        | none => rfl
        | some b =>
          simp only
          cases b.1.samples[b.2]? with
          | some a => rfl
          | none =>
            simp only [Step.mapS, Wds.exhausted]
            cases p.getLast? with
            | some s => rfl
            | none => cases c.mode <;> rfl

/-- **C93, the reader.** -/
theorem C93_loader_keeps (R : Wds.WRng ρ) (c : Wds.Cfg C) (restore : List Key → Option (Smp C)) : (loaderHeld R c restore).Keeps := by
  refine ⟨fun k m => m.1.pending = k.pending ∧ m.1.active = k.active ∧ m.1.rng = k.rng, fun k => ⟨rfl, rfl, rfl⟩, ?_, fun k m h => h, ?_⟩
  · rintro k ⟨m, b⟩ x x' h
    simp only [loaderHeld]
    split <;> exact h
  · rintro k ⟨m, b⟩ ⟨h1, h2, h3⟩
    simp only at h1 h2 h3
    refine loader_counts R c restore ?_ ?_ h3 rfl
    · simp only [loaderHeld, Wds.loaderD, Wds.ldResume, h1]
    · simp only [loaderHeld, Wds.loaderD, Wds.ldResume, h2]

/-- In a loop whose body does not look at the counter, the counter does not matter. -/
theorem loop_idx {D : Dataset σ α κ} {body : Nat → α → LoopRes β} {rs : List Key → Option β} {has : Bool} (hb : ∀ n m a, body n a = body m a) (s : σ) (n m : Nat) :
    (wrap D (loopW body rs has)).Equiv (s, ⟨n, .loop⟩) (s, ⟨m, .loop⟩) := by
  refine wrap_equiv_lockstep (R := fun x y => x.ctl = y.ctl) ?_ s rfl
  rintro ⟨n, c⟩ ⟨m, c'⟩ h
  cases h
  cases c with
  | loop => exact .pull (fun a => rfl) rfl
  | got a =>
    simp only [loopW]
    rw [hb n m a]
    cases body m a with
    | out b => exact .emit rfl
    | drop => exact .tau rfl
    | die => exact .raise
  | done => exact .halt rfl

variable {D : Dataset σ (Smp C) κ} {h : Held D M}

/-- **C93, filters** that do not look at the sample index. -/
theorem C93_filter_keeps (p : FilterFn C) (hp : ∀ n m a, p n a = p m a) (hk : h.Keeps) : (filterHeld h p).Keeps :=
  hk.wrap loopW_noReset _ fun _ _ s => loop_idx (fun n m a => by simp only [filterBody, hp n m a]) s _ _

/-- **C93, logging.** -/
theorem C93_log_keeps (hk : h.Keeps) : (logHeld h).Keeps := hk.wrap loopW_noReset _ fun _ _ s => loop_idx (fun _ _ _ => rfl) s _ _

/-- **C93, garbage collection.** -/
theorem C93_gc_keeps (hk : h.Keeps) : (gcHeld h).Keeps := by
  refine hk.wrap ?_ _ fun _ _ s => .refl _
  intro x x' hh
  exact loopW_noReset (body := fun _ (a : Smp C) => .out a) (rs := D.restoreSample) (has := D.hasSamples) x x' hh

/-- **C93, blending.** -/
theorem C93_blend_keeps {D : Nat → Dataset σ (Smp C) κ} {h : ∀ i, Held (D i) M} (n : Nat) (R : Rng ρ) (hk : ∀ i, (h i).Keeps) : (blendHeld h n R).Keeps :=
  Held.Keeps.wrapMulti hk blend_noReset _ fun _ _ => rfl

/-- **C93, concatenation.** -/
theorem C93_concat_keeps {D : Nat → Dataset σ (Smp C) κ} {h : ∀ i, Held (D i) M} (n : Nat) (hk : ∀ i, (h i).Keeps) : (concatHeld h n).Keeps :=
  Held.Keeps.wrapMulti hk concat_noReset _ fun _ _ => rfl

/-- **C93, repeating without end.** -/
theorem C93_repeat_keeps {D : Dataset σ α κ} {h : Held D M} (hk : h.Keeps) : (repeatHeld h none).Keeps := by
  refine hk.wrap repeat_noReset _ fun old x s => ?_
  refine wrap_equiv_lockstep (R := fun x y => x.ctl = y.ctl) ?_ s rfl
  rintro ⟨n, c⟩ ⟨m, c'⟩ h
  cases h
  cases c with
  | start =>
    simp only [repeatW]
    cases D.hasSamples
    · exact .raise
    · exact .tau rfl
  | loop => exact .pull (fun a => rfl) rfl
  | got a => exact .emit rfl

/-- **C93, a complete loader** of blended readers, without shuffle buffer, batches, encoders and virtual epochs (those break it, see below): blending, collecting garbage, logging. -/
theorem C93_readers_partial (R : Rng ρ) (n : Nat) (Rw : Nat → Wds.WRng ρ) (c : Nat → Wds.Cfg C) (restore : Nat → List Key → Option (Smp C)) :
    (gcHeld (logHeld (blendHeld (fun i => loaderHeld (Rw i) (c i) (restore i)) n R))).RestoresAgain :=
  (C93_gc_keeps (C93_log_keeps (C93_blend_keeps n R fun i => C93_loader_keeps (Rw i) (c i) (restore i)))).again

/-- Looking only at the contents of the samples. -/
def Held.contents (h : Held D M) : Held D.contents M := { start := h.start, content := h.content, follow := h.follow, detach := h.detach }

/-- **C93, map functions** that do not look at the sample index: the contents are the same (the restore keys contain the sample index and are not, see
`C93_violated_map`). -/
theorem C93_map_contents_partial (f : MapFn C C') (st : Bool) (hf : ∀ n m a, f n a = f m a) (hk : h.Keeps) : (mapHeld h f st).contents.RestoresAgain := by
  refine Held.Keeps.again ?_
  obtain ⟨I, h1, h2, h3, h4⟩ := hk
  have hs : ∀ (s : σ) (n m : Nat), (mapD D f st).contents.Equiv (s, ⟨n, .loop⟩) (s, ⟨m, .loop⟩) := by
    intro s n m
    have e : (mapD D f st).contents = wrap D ((loopW (mapBody f) (mapRestore D f st) D.hasSamples).mapOut (·.content)) := wrap_mapOut
    rw [e]
    refine wrap_equiv_lockstep (R := fun x y => x.ctl = y.ctl) ?_ s rfl
    rintro ⟨n, c⟩ ⟨m, c'⟩ h
    cases h
    cases c with
    | loop => exact .pull (fun a => rfl) rfl
    | got a =>
      simp only [Wrapper.mapOut, loopW, mapBody]
      rw [hf n m a]
      cases f m a with
      | ok b => exact .emit rfl
      | skip => exact .tau rfl
      | fail => exact .tau rfl
      | fatal => exact .raise
    | done => exact .halt rfl
  refine ⟨fun k m => I k.1 m.1, fun k => h1 _, ?_, fun k m hm => h3 _ _ hm, ?_⟩
  · rintro ⟨k, kx⟩ ⟨m, kx', b⟩ ⟨s, x⟩ ⟨s', x'⟩ hm
    simp only [Held.contents, mapHeld, Held.wrap]
    split
    · exact h2 _ _ _ _ hm
    · exact h3 _ _ hm
    · exact hm
  · rintro ⟨k, kx⟩ ⟨m, kx', b⟩ hm
    have e : (mapD D f st).contents = wrap D ((loopW (mapBody f) (mapRestore D f st) D.hasSamples).mapOut (·.content)) := wrap_mapOut
    refine Dataset.Equiv.trans (t := (D.resume k, ⟨kx', .loop⟩)) ?_ (hs _ _ _)
    show (mapD D f st).contents.Equiv (D.resume (h.content m), ⟨kx', .loop⟩) (D.resume k, ⟨kx', .loop⟩)
    rw [e]
    refine wrap_equiv ?_ (h4 _ _ hm) _
    intro x x' hx
    simp only [Wrapper.mapOut] at hx
    have := loopW_noReset (body := mapBody f) (rs := mapRestore D f st) (has := D.hasSamples) x
    generalize (loopW (mapBody f) (mapRestore D f st) D.hasSamples).act x = a at this hx
    cases a <;> simp only [Act.mapB] at hx <;> cases hx
    exact this _ rfl

/-! ## Where it does not hold -/

theorem Dataset.after_run {D : Dataset σ α κ} {n k : Nat} {s s' : σ} (h : D.after n k s = some s') : ∃ evs, D.Run s evs s' := by
  have key : ∀ n k s, D.after n k s = some s' → ∀ s0, (∀ o, Obs D.step s o → Obs D.step s0 o) → (k ≠ 0 ∨ s = s0) → ∃ evs, D.Run s0 evs s' := by
    intro n
    induction n with
    | zero =>
      intro k s h s0 h1 hk
      cases k with
      | zero =>
        simp only [Dataset.after, Option.some.injEq] at h
        rcases hk with hk | rfl
        · exact absurd rfl hk
        · subst h; exact ⟨_, .nil⟩
      | succ k => simp [Dataset.after] at h
    | succ n ih =>
      intro k s h s0 h1 hk
      cases k with
      | zero =>
        simp only [Dataset.after, Option.some.injEq] at h
        rcases hk with hk | rfl
        · exact absurd rfl hk
        · subst h; exact ⟨_, .nil⟩
      | succ k =>
        simp only [Dataset.after] at h
        split at h
        · next hs =>
          obtain ⟨es, hr⟩ := ih k _ h _ (fun o ho => ho) (.inr rfl)
          exact ⟨_, .item (h1 _ (.item hs)) hr⟩
        · next hs => exact ih (k + 1) _ h s0 (fun o ho => h1 o (.skip hs ho)) (.inl (by simp))
        · next hs =>
          obtain ⟨es, hr⟩ := ih k _ h _ (fun o ho => ho) (.inr rfl)
          exact ⟨_, .fin (h1 _ (.fin hs)) hr⟩
        · cases h
  exact key n k s h s (fun o ho => ho) (.inr rfl)

/-- To refute: a state that is saved at once, `k` events after restoring it, and then restored again shows other events. -/
theorem Held.not_again {D : Dataset σ α κ} {h : Held D M} {s : σ} (hp : D.Paused false s) (n k m j : Nat) {p : σ × M}
    (hr : h.watched.after n k (D.resume (D.save s), h.start (D.save s)) = some p)
    (h1 : (D.eval m (D.resume (h.content p.2))).take j ≠ (D.eval m (D.resume (D.save s))).take j)
    (h2 : ((D.eval m (D.resume (h.content p.2))).take j).length = ((D.eval m (D.resume (D.save s))).take j).length) : ¬ h.RestoresAgain := by
  intro hh
  obtain ⟨evs, hr⟩ := Dataset.after_run hr
  exact Dataset.not_equiv m j h1 h2 (hh s hp _ _ hr)

/-- A reader for the examples: five slices of one sample, in order, without shuffling. `restore_sample` finds the samples. -/
def againCfg : Wds.Cfg Nat :=
  ⟨[⟨("a", 0), 1, [⟨1, [.num 1]⟩]⟩, ⟨("a", 1), 1, [⟨2, [.num 2]⟩]⟩, ⟨("a", 2), 1, [⟨3, [.num 3]⟩]⟩, ⟨("a", 3), 1, [⟨4, [.num 4]⟩]⟩, ⟨("b", 0), 1, [⟨5, [.num 5]⟩]⟩], .none, 1, false⟩

/-- The reader -/
def againD : Dataset (Wds.LdX Nat Nat) (Smp Nat) (Wds.LdState Nat) :=
  Wds.loaderD Wds.exRng againCfg (fun k => match k with | [.num i] => some ⟨i, k⟩ | _ => none)

/-- The state object of this reader. -/
def againH : Held againD (Wds.LdState Nat × Bool) := loaderHeld _ _ _

/-- The reader of the examples is fine. -/
theorem againH_keeps : againH.Keeps := C93_loader_keeps _ _ _

/-- The hypotheses are met: a filter, a map. -/
example : (filterHeld againH (fun _ a => some (a.content % 2 = 0))).RestoresAgain := (C93_filter_keeps _ (fun _ _ _ => rfl) againH_keeps).again

example : (mapHeld againH (fun _ a => .ok (a.content + 1)) true).contents.RestoresAgain := C93_map_contents_partial _ _ (fun _ _ _ => rfl) againH_keeps

/-- A random generator for the examples: it counts. -/
def againRng : Rng Nat :=
  { seed := 0, below := fun g n => (g % n, g + 1), below_lt := fun g _ h => Nat.mod_lt g h, choice := fun g n => (g % n, g + 1), choice_lt := fun g _ h => Nat.mod_lt g h }

/-- The full property. -/
def C93_statement {σ' κ' M' : Type} {D : Dataset σ α κ} {D' : Dataset σ' β κ'} (h : Held D M) (h' : Held D' M') : Prop := h.RestoresAgain → h'.RestoresAgain

/-- **C93 violated, shuffling. The object holds the buffer as it is now, and the position of the reader as it was: samples come twice, others never.** -/
theorem C93_violated_shuffle : againH.RestoresAgain ∧ ¬ C93_statement againH (shuffleHeld againH againRng 2) := by
  refine ⟨againH_keeps.again, fun h => ?_⟩
  refine Held.not_again (h := shuffleHeld againH againRng 2) (Dataset.after_paused (n := 40) (k := 1) rfl .init) 40 2 40 3 rfl ?_ ?_ (h againH_keeps.again)
  · decide +kernel
  · decide +kernel

/-- **C93 violated, virtual epochs of 3 samples. Restored after the first sample, the epoch has two more samples; after the second restore only one.** -/
theorem C93_violated_epochize : againH.RestoresAgain ∧ ¬ C93_statement againH (epochizeHeld againH 3 0 0) := by
  refine ⟨againH_keeps.again, fun h => ?_⟩
  refine Held.not_again (h := epochizeHeld againH 3 0 0) (Dataset.after_paused (n := 40) (k := 1) rfl .init) 40 1 40 2 rfl ?_ ?_ (h againH_keeps.again)
  · decide +kernel
  · decide +kernel

/-- **C93 violated, a limit of 3 samples.** -/
theorem C93_violated_limit : againH.RestoresAgain ∧ ¬ C93_statement againH (limitHeld againH 3 0 0 true) := by
  refine ⟨againH_keeps.again, fun h => ?_⟩
  refine Held.not_again (h := limitHeld againH 3 0 0 true) (Dataset.after_paused (n := 40) (k := 1) rfl .init) 40 1 40 2 rfl ?_ ?_ (h againH_keeps.again)
  · decide +kernel
  · decide +kernel

/-- **C93 violated, two repetitions. The second restore finds all repetitions done and delivers nothing.** -/
theorem C93_violated_repeat : againH.RestoresAgain ∧ ¬ C93_statement againH (repeatHeld againH (some 2)) := by
  refine ⟨againH_keeps.again, fun h => ?_⟩
  refine Held.not_again (h := repeatHeld againH (some 2)) (Dataset.after_paused (n := 40) (k := 1) rfl .init) 40 6 40 1 rfl ?_ ?_ (h againH_keeps.again)
  · decide +kernel
  · decide +kernel

/-- **C93 violated, a map function. The restore keys (and the sample index, which the function may use) are other ones.** -/
theorem C93_violated_map : againH.RestoresAgain ∧ ¬ C93_statement againH (mapHeld againH (fun _ a => MapRes.ok a.content) true) := by
  refine ⟨againH_keeps.again, fun h => ?_⟩
  refine Held.not_again (h := mapHeld againH (fun _ a => MapRes.ok a.content) true) (Dataset.after_paused (n := 40) (k := 1) rfl .init) 40 1 40 1 rfl ?_ ?_ (h againH_keeps.again)
  · decide +kernel
  · decide +kernel

/-- **C93 violated, batches. As for map functions.** -/
theorem C93_violated_batch : againH.RestoresAgain ∧ ¬ C93_statement againH (batchHeld againH 2 true (fun _ l => BatchRes.ok (l.map (·.content)).sum)) := by
  refine ⟨againH_keeps.again, fun h => ?_⟩
  refine Held.not_again (h := batchHeld againH 2 true (fun _ l => BatchRes.ok (l.map (·.content)).sum)) (Dataset.after_paused (n := 40) (k := 1) rfl .init) 40 1 40 1 rfl ?_ ?_ (h againH_keeps.again)
  · decide +kernel
  · decide +kernel

/-- **C93 violated, in a stack.** A loader with a shuffle buffer, logging and garbage collection. -/
theorem C93_violated_stack : againH.RestoresAgain ∧ ¬ C93_statement againH (gcHeld (logHeld (shuffleHeld againH againRng 2))) := by
  refine ⟨againH_keeps.again, fun h => ?_⟩
  refine Held.not_again (h := gcHeld (logHeld (shuffleHeld againH againRng 2))) (Dataset.after_paused (n := 40) (k := 1) rfl .init) 40 2 40 3 rfl ?_ ?_ (h againH_keeps.again)
  · decide +kernel
  · decide +kernel

end Verif.Stream
