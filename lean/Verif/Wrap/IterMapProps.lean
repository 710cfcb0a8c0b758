import Verif.Wrap.IterMapModel
import Verif.Wrap.MapGenProps

/-! # C52: mapping the stream of samples -/

namespace Verif.Stream

variable {σ κ C C' : Type}

/-! ## Specification -/

/-- What the stream mapping delivers for the source samples `xs`: for each source sample, what the function yields for it, in
order. `n` is the next sample index: each sample delivered and each exception uses one up. `ks` are the keys of the
source samples since the last delivered sample; they go into the key of the next one. -/
def iterOuts (g : IterFn C C') : Nat → List (List Key) → List (Smp C) → List (Smp C')
  | _, _, [] => []
  | n, ks, a :: xs =>
    let n' := n + (g a).1.length + if (g a).2 = .skip then 1 else 0
    match (g a).1 with
    | [] => iterOuts g n' (ks ++ [a.key]) xs
    | c :: cs =>
      ⟨c n, iterKey n 0 (ks ++ [a.key])⟩ ::
        (cs.mapIdx fun i c => ⟨c (n + 1 + i), iterKey (n + 1 + i) (1 + i) []⟩) ++ iterOuts g n' [] xs

/-- At most one sample per source sample, and no exception after it. -/
def AtMostOne (g : IterFn C C') : Prop := ∀ a, (g a).1 = [] ∨ ((g a).1.length = 1 ∧ (g a).2 = .done)

/-! ## What is delivered -/

theorem iterMap_noReset {D : Dataset σ (Smp C) κ} {g : IterFn C C'} {st : Bool} : (iterMapW D g st).NoReset := by
  rintro ⟨n, ks, it, c⟩ x' h
  cases c with
  | begin => simp only [iterMapW] at h; cases h
  | pulling n => simp only [iterMapW] at h; cases h
  | run n rest e =>
    cases rest with
    | cons c cs => simp only [iterMapW] at h; cases h
    | nil => cases e <;> simp only [iterMapW] at h <;> cases h
  | emitted rest e => simp only [iterMapW] at h; cases h
  | done => simp only [iterMapW] at h; cases h

private theorem emitted_trans (D : Dataset σ (Smp C) κ) (g : IterFn C C') (st : Bool) (e : FinalEnd)
    (cs : List (Nat → C')) : ∀ (n it : Nat) (ks : List (List Key)),
    (iterMapW D g st).Trans ⟨n, ks, it, .emitted cs e⟩ []
      ((cs.mapIdx fun i c => (⟨c (n + i), iterKey (n + i) (it + 1 + i) []⟩ : Smp C')).map .item)
      ⟨n + cs.length + 1, [], it + 1 + cs.length, .run (n + cs.length) [] e⟩ := by
  induction cs with
  | nil =>
    intro n it ks
    exact .tau (W := iterMapW D g st) (by rfl) .nil
  | cons c cs ih =>
    intro n it ks
    rw [List.mapIdx_cons]
    refine .tau (W := iterMapW D g st) (x := ⟨n, ks, it, .emitted (c :: cs) e⟩)
      (x' := ⟨n + 1, [], it + 1, .run n (c :: cs) e⟩) rfl ?_
    refine .emit (W := iterMapW D g st) (x := ⟨n + 1, [], it + 1, .run n (c :: cs) e⟩)
      (x' := ⟨n + 1, [], it + 1, .emitted cs e⟩) rfl ?_
    have := ih (n + 1) (it + 1) []
    simp only [List.length_cons]
    have e1 : n + 1 + cs.length = n + (cs.length + 1) := by omega
    have e2 : it + 1 + 1 + cs.length = it + 1 + (cs.length + 1) := by omega
    have e3 : ∀ i, n + 1 + i = n + (i + 1) := by omega
    have e4 : ∀ i, it + 1 + 1 + i = it + 1 + (i + 1) := by omega
    simp only [e1, e2, e3, e4] at this
    exact this

private theorem iter_trans (D : Dataset σ (Smp C) κ) (g : IterFn C C') (st : Bool) (hg : ∀ a, (g a).2 ≠ .fatal)
    (xs : List (Smp C)) : ∀ (n it : Nat) (ks : List (List Key)),
    ∃ n' it' ks', (iterMapW D g st).Trans ⟨n + 1, ks, it, .pulling n⟩ (xs.map .item) ((iterOuts g n ks xs).map .item)
      ⟨n' + 1, ks', it', .pulling n'⟩ := by
  induction xs with
  | nil => intro n it ks; exact ⟨n, it, ks, .nil⟩
  | cons a xs ih =>
    intro n it ks
    have h1 : (iterMapW D g st).Trans ⟨n + 1, ks, it, .pulling n⟩ [.item a] []
        ⟨n + 1, ks ++ [a.key], 0, .run n (g a).1 (g a).2⟩ :=
      .pullItem (W := iterMapW D g st) (x := ⟨n + 1, ks, it, .pulling n⟩) rfl .nil
    -- the end of the work on this sample
    have hend : ∀ (m i : Nat) (l : List (List Key)), ∃ i', (iterMapW D g st).Trans ⟨m + 1, l, i, .run m [] (g a).2⟩ [] []
        ⟨m + (if (g a).2 = .skip then 1 else 0) + 1, l, i', .pulling (m + if (g a).2 = .skip then 1 else 0)⟩ := by
      intro m i l
      cases he : (g a).2 with
      | done => exact ⟨i, .tau (W := iterMapW D g st) (by rfl) .nil⟩
      | skip => exact ⟨0, .tau (W := iterMapW D g st) (x' := ⟨m + 1, l, i, .begin⟩) (by rfl)
          (.tau (W := iterMapW D g st) (by rfl) .nil)⟩
      | fatal => exact absurd he (hg a)
    cases ho : (g a).1 with
    | nil =>
      rw [ho] at h1
      obtain ⟨i', h2⟩ := hend n 0 (ks ++ [a.key])
      obtain ⟨n', it', ks', h3⟩ := ih (n + if (g a).2 = .skip then 1 else 0) i' (ks ++ [a.key])
      refine ⟨n', it', ks', ?_⟩
      have := (h1.append h2).append h3
      simpa [iterOuts, ho] using this
    | cons c cs =>
      rw [ho] at h1
      have h2 : (iterMapW D g st).Trans ⟨n + 1, ks ++ [a.key], 0, .run n (c :: cs) (g a).2⟩ []
          [.item ⟨c n, iterKey n 0 (ks ++ [a.key])⟩] ⟨n + 1, ks ++ [a.key], 0, .emitted cs (g a).2⟩ :=
        .emit (W := iterMapW D g st) (by rfl) .nil
      have h3 := emitted_trans D g st (g a).2 cs (n + 1) 0 (ks ++ [a.key])
      obtain ⟨i', h4⟩ := hend (n + 1 + cs.length) (0 + 1 + cs.length) []
      obtain ⟨n', it', ks', h5⟩ := ih (n + 1 + cs.length + if (g a).2 = .skip then 1 else 0) i' []
      refine ⟨n', it', ks', ?_⟩
      have := (((h1.append h2).append h3).append h4).append h5
      have e1 : n + (cs.length + 1) = n + 1 + cs.length := by omega
      simpa [iterOuts, ho, e1] using this

/-- A pass over the source samples `xs` delivers, for each source sample, what the function yields for it; an exception
affects only the source sample it is raised for. Hypothesis: no fatal error. -/
theorem C52_iter_map_pass (D : Dataset σ (Smp C) κ) (g : IterFn C C') (st : Bool) (hg : ∀ a, (g a).2 ≠ .fatal)
    (xs : List (Smp C)) (s s' : σ) (hs : D.Pass s xs s') (n : Nat) :
    ∃ n', (iterMapD D g st).Pass (s, ⟨n, [], 0, .begin⟩) (iterOuts g n [] xs) (s', ⟨n', [], 0, .begin⟩) := by
  obtain ⟨n', it', ks', h⟩ := iter_trans D g st hg xs n 0 []
  refine ⟨n' + 1, ?_⟩
  have h1 : (iterMapW D g st).Trans ⟨n, [], 0, .begin⟩ [] [] ⟨n + 1, [], 0, .pulling n⟩ :=
    .tau (W := iterMapW D g st) (by rfl) .nil
  have h2 : (iterMapW D g st).Trans ⟨n' + 1, ks', it', .pulling n'⟩ [.fin] [] ⟨n' + 1, ks', it', .done⟩ :=
    .pullFin (W := iterMapW D g st) (x := ⟨n' + 1, ks', it', .pulling n'⟩) (by rfl) .nil
  have h3 := (h1.append h).append h2
  rw [List.append_nil, List.nil_append, List.nil_append] at h3
  exact h3.run_halt (D := D) (by rfl) hs

/-- The same for every prefix of the source (also of an endless one). -/
theorem C52_iter_map_items (D : Dataset σ (Smp C) κ) (g : IterFn C C') (st : Bool) (hg : ∀ a, (g a).2 ≠ .fatal)
    (xs : List (Smp C)) (s s' : σ) (hs : D.Items s xs s') (n : Nat) :
    ∃ q, (iterMapD D g st).Items (s, ⟨n, [], 0, .begin⟩) (iterOuts g n [] xs) q := by
  obtain ⟨n', it', ks', h⟩ := iter_trans D g st hg xs n 0 []
  have h1 : (iterMapW D g st).Trans ⟨n, [], 0, .begin⟩ [] [] ⟨n + 1, [], 0, .pulling n⟩ :=
    .tau (W := iterMapW D g st) (by rfl) .nil
  exact (h1.append h).run_some (D := D) hs

/-! ## Resuming -/

private def IterJ (g : IterFn C C') (Y : Smp C → Prop) (x : IterX C') : Prop :=
  (∀ k ∈ x.keys, ∃ a, Y a ∧ a.key = k) ∧
  match x.ctl with
  | .begin => x.it = 0 ∨ True
  | .pulling _ => True
  | .run _ rest e => (∃ a, Y a ∧ (g a).1 = rest ∧ (g a).2 = e) ∨ (rest = [] ∧ e ≠ .skip)
  | .emitted rest e => ∃ a c, Y a ∧ (g a).1 = c :: rest ∧ (g a).2 = e
  | .done => True

private theorem iter_inv (D : Dataset σ (Smp C) κ) (g : IterFn C C') (hg : AtMostOne g) (st r : Bool) :
    WInv (Source.single D) (iterMapW D g st) (D.Paused r) (IterJ g (D.Yields r))
      (fun x => IterJ g (D.Yields r) x ∧ ((x.ctl = .begin ∧ x.keys = []) ∨
        ∃ a c rest e, D.Yields r a ∧ (g a).1 = c :: rest ∧ (g a).2 = e ∧ x.ctl = .emitted rest e)) := by
  refine WInv.ofInv iterMap_noReset (fun _ h => h.1) ?_
  rintro ⟨n, ks, it, c⟩ ⟨hk, hx⟩
  cases c with
  | begin => exact ⟨hk, trivial⟩
  | pulling m =>
    refine ⟨fun a ha => ⟨?_, .inl ⟨a, ha, rfl, rfl⟩⟩, fun _ => ⟨hk, trivial⟩⟩
    intro k hk'
    rcases List.mem_append.1 hk' with h | h
    · exact hk k h
    · exact ⟨a, ha, (List.mem_singleton.1 h).symm⟩
  | run m rest e =>
    cases rest with
    | cons c cs =>
      rcases hx with ⟨a, h1, h2, h3⟩ | ⟨h, _⟩
      · exact ⟨⟨hk, a, c, h1, h2, h3⟩, .inr ⟨a, c, cs, e, h1, h2, h3, rfl⟩⟩
      · cases h
    | nil => cases e with
      | done => exact ⟨hk, trivial⟩
      | skip => exact ⟨hk, .inr trivial⟩
      | fatal => trivial
  | emitted rest e =>
    obtain ⟨a, c, h1, h2, h3⟩ := hx
    refine ⟨(by intro k h; cases h), .inr ?_⟩
    rcases hg a with h | ⟨h, h'⟩
    · rw [h2] at h; cases h
    · rw [h2] at h
      exact ⟨by simpa using h, by rw [← h3, h']; simp⟩
  | done => exact ⟨⟨(by intro k h; cases h), .inr trivial⟩, .inl ⟨rfl, rfl⟩⟩

/-- If the function yields at most one sample per source sample (and raises no exception after it), the dataset resumes
exactly. -/
theorem C52_iter_map_resumes_partial (D : Dataset σ (Smp C) κ) (g : IterFn C C') (hg : AtMostOne g) (st r : Bool)
    (hD : D.ResumesExactly r) : (iterMapD D g st).ResumesExactly r := by
  have hi : ∀ n, IterJ g (D.Yields r) (⟨n, [], 0, .begin⟩ : IterX C') := fun n => ⟨(by intro k h; cases h), .inr trivial⟩
  refine wrap_resumes (iter_inv D g hg st r) ⟨hi 0, .inl ⟨rfl, rfl⟩⟩ (fun x _ => ⟨hi _, .inl ⟨rfl, rfl⟩⟩)
    (fun _ x _ => ⟨hi 0, .inl ⟨rfl, rfl⟩⟩) iterMap_noReset hD ?_
  rintro s ⟨n, ks, it, c⟩ _ ⟨_, hx⟩
  -- only `begin` and `emitted [] _`
  have hb : ∀ it, (iterMapD D g st).Equiv (s, ⟨n, [], it, .begin⟩) (s, ⟨n, [], 0, .begin⟩) := fun it =>
    (wrap_equiv_tau (W := iterMapW D g st) (x := ⟨n, [], it, .begin⟩) (x' := ⟨n + 1, [], 0, .pulling n⟩) rfl).trans
      (wrap_equiv_tau (W := iterMapW D g st) (x := ⟨n, [], 0, .begin⟩) rfl).symm
  rcases hx with ⟨h1, h2⟩ | ⟨a, c', rest, e, _, h1, h2, h3⟩
  · simp only at h1 h2
    subst h1 h2
    exact hb it
  · simp only at h3
    subst h3
    rcases hg a with h | ⟨h, h'⟩
    · rw [h1] at h; cases h
    · rw [h1] at h
      have hr : rest = [] := by simpa using h
      subst hr
      rw [h2] at h'
      subst h'
      refine (wrap_equiv_tau (W := iterMapW D g st) (x' := ⟨n + 1, [], it + 1, .run n [] .done⟩) rfl).trans ?_
      refine (wrap_equiv_tau (W := iterMapW D g st) (x' := ⟨n + 1, [], it + 1, .pulling n⟩) rfl).trans ?_
      refine Dataset.Equiv.trans ?_ (wrap_equiv_tau (W := iterMapW D g st) (x := ⟨n, [], 0, .begin⟩) rfl).symm
      refine wrap_equiv_lockstep (R := fun x y => x = y ∨ ∃ n it it' c, (c = .done ∨ ∃ m, c = .pulling m) ∧
        x = ⟨n, [], it, c⟩ ∧ y = ⟨n, [], it', c⟩) ?_ s
        (.inr ⟨n + 1, it + 1, 0, .pulling n, .inr ⟨n, rfl⟩, rfl, rfl⟩)
      rintro x y (rfl | ⟨n, it, it', c, h | ⟨m, h⟩, rfl, rfl⟩)
      · generalize (iterMapW D g st).act x = a
        cases a with
        | emit => exact .emit (.inl rfl)
        | halt => exact .halt (.inl rfl)
        | tau => exact .tau (.inl rfl)
        | pull => exact .pull (fun _ => .inl rfl) (.inl rfl)
        | reset => exact .reset (.inl rfl)
        | raise => exact .raise
      · subst h; exact .halt (.inl rfl)
      · subst h; exact .pull (fun _ => .inl rfl) (.inr ⟨n, it, it', .done, .inl rfl, rfl, rfl⟩)

/-- A stream mapping for examples: even numbers are dropped, the others are halved. -/
def halveOdd : IterFn Nat Nat := fun a => (if a.content % 2 = 0 then [] else [fun n => a.content / 2 + 100 * n], .done)

theorem halveOdd_one : AtMostOne halveOdd := by
  intro a
  simp only [halveOdd]
  split
  · exact .inl rfl
  · exact .inr (by simp)

example : (iterMapD (streamD id) halveOdd true).ResumesExactly :=
  C52_iter_map_resumes_partial _ _ halveOdd_one _ _ (streamD_resumes _ _)

example : ((iterMapD (listD [4, 5, 7]) halveOdd true).eval 60 (iterMapD (listD [4, 5, 7]) halveOdd true).init).take 3
    = [.item ⟨2, [.str "IterMapDataset", .num 0, .num 0, .tup [.num 0], .tup [.num 1]]⟩,
       .item ⟨103, [.str "IterMapDataset", .num 1, .num 0, .tup [.num 2]]⟩, .fin] := by decide +kernel

/-- Two copies of each sample. -/
def iterTwice : IterFn Nat Nat := fun a => ([fun _ => a.content, fun _ => a.content], .done)

/-- With two samples per source sample, a run resumed between the two loses the second one. -/
theorem C52_violated : (streamD id).ResumesExactly ∧ ¬ (iterMapD (streamD id) iterTwice true).contents.ResumesExactly := by
  refine ⟨streamD_resumes _ _, fun h => ?_⟩
  have hp : (iterMapD (streamD id) iterTwice true).Paused false
      (1, ⟨1, [[.num 0]], 0, .emitted [fun _ => 0] .done⟩) :=
    Dataset.after_paused (n := 30) (k := 1) (by rfl) .init
  exact Dataset.not_equiv 30 1 (by decide +kernel) (by decide +kernel) (h _ (paused_mapOut.2 hp))

/-! ## Restore keys -/

/-- The keys belong to samples for which the function yields nothing. -/
private def Silent (g : IterFn C C') (Y : Smp C → Prop) (ks : List (List Key)) : Prop :=
  ∀ k ∈ ks, ∃ a, Y a ∧ a.key = k ∧ g a = ([], .done)

private def IterK (g : IterFn C C') (Y : Smp C → Prop) (x : IterX C') : Prop :=
  match x.ctl with
  | .begin => x.keys = []
  | .pulling _ => Silent g Y x.keys
  | .run _ rest e => (rest = [] ∧ x.keys = [] ∧ e ≠ .skip) ∨
      ∃ ks a, Silent g Y ks ∧ x.keys = ks ++ [a.key] ∧ Y a ∧ g a = (rest, e) ∧ x.it = 0
  | .emitted rest e => rest = [] ∧ e ≠ .skip
  | .done => True

private theorem iterK_inv (D : Dataset σ (Smp C) κ) (g : IterFn C C') (hg : ∀ a, (g a).1.length ≤ 1)
    (hs : ∀ a, (g a).2 ≠ .skip) (st r : Bool) :
    WInv (Source.single D) (iterMapW D g st) (D.Paused r) (IterK g (D.Yields r)) (IterK g (D.Yields r)) := by
  refine WInv.ofInv iterMap_noReset (fun _ h => h) ?_
  rintro ⟨n, ks, it, c⟩ hx
  cases c with
  | begin =>
    have : ks = [] := hx
    subst this
    intro k h; cases h
  | pulling m => exact ⟨fun a ha => .inr ⟨ks, a, hx, rfl, ha, rfl, rfl⟩, fun _ => trivial⟩
  | run m rest e =>
    cases rest with
    | cons c cs =>
      rcases hx with ⟨h, _⟩ | ⟨ks0, a, h1, h2, h3, h4, h5⟩
      · cases h
      · have := hg a
        rw [h4] at this
        exact ⟨by simpa using this, by have := hs a; rw [h4] at this; exact this⟩
    | nil =>
      cases e with
      | done =>
        rcases hx with ⟨_, h, _⟩ | ⟨ks0, a, h1, h2, h3, h4, h5⟩
        · simp only at h; subst h; intro k hk; cases hk
        · simp only at h2; subst h2
          intro k hk
          rcases List.mem_append.1 hk with hk | hk
          · exact h1 k hk
          · exact ⟨a, h3, (List.mem_singleton.1 hk).symm, h4⟩
      | skip =>
        rcases hx with ⟨_, _, h⟩ | ⟨ks0, a, h1, h2, h3, h4, h5⟩
        · exact absurd rfl h
        · have := hs a; rw [h4] at this; exact absurd rfl this
      | fatal => trivial
  | emitted rest e => exact .inl ⟨hx.1, rfl, hx.2⟩
  | done => exact rfl

private theorem iterNth_silent {restore : List Key → Option (Smp C)} {g : IterFn C C'} {Y : Smp C → Prop}
    (hY : ∀ a, Y a → restore a.key = some a) (ks : List (List Key)) (h : Silent g Y ks) (j : Nat) (l : List (List Key)) :
    iterNth restore g j (ks ++ l) = iterNth restore g j l := by
  induction ks with
  | nil => rfl
  | cons k ks ih =>
    obtain ⟨a, h1, h2, h3⟩ := h k (by simp)
    rw [List.cons_append, iterNth, ← h2, hY a h1]
    simp only [h3]
    simpa using ih fun k hk => h k (List.mem_cons_of_mem _ hk)

/-- If the function yields at most one sample per source sample and no exception is raised, the delivered samples are
restored from their keys. -/
theorem C52_iter_map_restores_partial (D : Dataset σ (Smp C) κ) (g : IterFn C C') (hg : ∀ a, (g a).1.length ≤ 1)
    (hs : ∀ a, (g a).2 ≠ .skip) (r : Bool) (hR : D.RestoresSamples r) : (iterMapD D g true).RestoresSamples r := by
  rintro ⟨s, x⟩ b q hp h
  obtain ⟨h1, h2⟩ := wrap_paused (iterK_inv D g hg hs true r) rfl (fun _ _ => rfl) (fun _ _ _ => rfl) hp
  refine WObs.emits (iterK_inv D g hg hs true r) (Z := fun b => (iterMapD D g true).restoreSample b.key = some b) ?_
    (wrap_obs.1 h) h1 h2
  rintro ⟨n, ks, it, c⟩ b x' hx h
  cases c with
  | begin => simp only [iterMapW] at h; cases h
  | pulling m => simp only [iterMapW] at h; cases h
  | emitted rest e => simp only [iterMapW] at h; cases h
  | done => simp only [iterMapW] at h; cases h
  | run m rest e =>
    cases rest with
    | nil => cases e <;> simp only [iterMapW] at h <;> cases h
    | cons c cs =>
      simp only [iterMapW] at h
      cases h
      rcases hx with ⟨h, _⟩ | ⟨ks0, a, h1, h2, h3, h4, h5⟩
      · cases h
      · simp only at h2 h5
        subst h2 h5
        have hY : ∀ a, D.Yields r a → D.restoreSample a.key = some a := by
          rintro a ⟨s, s', h1, h2⟩; exact hR s a s' h1 h2
        simp only [iterMapD, wrap, iterMapW, iterKey, keyTuples_map, decide_true, Bool.and_self, if_true,
          iterNth_silent hY ks0 h1]
        simp [iterNth, hY a h3, h4]

example : (iterMapD (listD [4, 5, 7]) halveOdd true).RestoresSamples :=
  C52_iter_map_restores_partial _ _ (by intro a; simp only [halveOdd]; split <;> simp) (by simp [halveOdd]) _
    (listD_restores _ _)

/-- With two samples per source sample the second one cannot be restored. -/
theorem C52_restores_violated : (listD [1, 2]).RestoresSamples ∧ ¬ (iterMapD (listD [1, 2]) iterTwice true).RestoresSamples := by
  refine ⟨listD_restores _ _, fun h => ?_⟩
  have hp : (iterMapD (listD [1, 2]) iterTwice true).Paused false
      (1, ⟨1, [[.num 0]], 0, .emitted [fun _ => 1] .done⟩) :=
    Dataset.after_paused (n := 30) (k := 1) (by rfl) .init
  have ho : Obs (iterMapD (listD [1, 2]) iterTwice true).step (1, ⟨1, [[.num 0]], 0, .emitted [fun _ => 1] .done⟩)
      (.item ⟨1, [.str "IterMapDataset", .num 1, .num 1]⟩ (1, ⟨2, [], 1, .emitted [] .done⟩)) :=
    .skip (s' := (1, ⟨2, [], 1, .run 1 [fun _ => 1] .done⟩)) rfl (.item rfl)
  have := h _ _ _ hp ho
  revert this
  decide +kernel

/-- A sample delivered after a source sample whose mapping failed cannot be restored: the key contains the failed source
sample as well. -/
theorem C52_restores_violated_failure :
    ∃ g : IterFn Nat Nat, (∀ a, (g a).1.length ≤ 1) ∧ ¬ (iterMapD (listD [1, 2]) g true).RestoresSamples := by
  refine ⟨fun a => if a.content = 1 then ([], .skip) else ([fun _ => a.content], .done), ?_, fun h => ?_⟩
  · intro a; simp only; split <;> simp
  · have ho : Obs (iterMapD (listD [1, 2]) (fun a => if a.content = 1 then ([], .skip) else
          ([fun _ => a.content], .done)) true).step (0, ⟨0, [], 0, .begin⟩)
        (.item ⟨2, [.str "IterMapDataset", .num 1, .num 0, .tup [.num 0], .tup [.num 1]]⟩
          (2, ⟨2, [[.num 0], [.num 1]], 0, .emitted [] .done⟩)) :=
      .skip (s' := (0, ⟨1, [], 0, .pulling 0⟩)) rfl
        (.skip (s' := (1, ⟨1, [[.num 0]], 0, .run 0 [] .skip⟩)) rfl
          (.skip (s' := (1, ⟨1, [[.num 0]], 0, .begin⟩)) rfl
            (.skip (s' := (1, ⟨2, [[.num 0]], 0, .pulling 1⟩)) rfl
              (.skip (s' := (2, ⟨2, [[.num 0], [.num 1]], 0, .run 1 [fun _ => 2] .done⟩)) rfl (.item rfl)))))
    have := h _ _ _ .init ho
    revert this
    decide +kernel

end Verif.Stream
