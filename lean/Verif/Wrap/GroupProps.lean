import Verif.Wrap.GroupLemmas

/-! # C28, C29: batches by group

The vocabulary (`groupKey`, `SizeOf`, `samplesOf`, `batchesOf`, `outG`) is defined at the end of the first part of
GroupLemmas.lean, `Batches` in BatchProps.lean. -/

namespace Verif.Stream

set_option linter.unusedSectionVars false

variable {σ κ C C' K A : Type} [DecidableEq K]

/-! ## C28 -/

/-- A pass over the source samples `xs` is cut into batches `bs`, each belonging to one group. For every group `k` the
batches of this group are what C25 says about plain batching of the samples of this group: in source order, of size
`bf k` except for the last one, nothing lost (unless `drop_last`). Every batch for which the batcher succeeds is
delivered with the keys of its samples; a failing batch affects no other. -/
theorem C28_group_pass (D : Dataset σ (Smp C) κ) (fixed : Option Nat) (key : GroupFn C K) (f : BatchFn C C') (dl : Bool)
    (hf : ∀ i b, f i b ≠ .fatal) (hk : ∀ i a, key i a ≠ .fatal) (bf : K → Nat) (hs : SizeOf fixed key bf)
    (xs : List (Smp C)) (s s' : σ) (hp : D.Pass s xs s') (g b : Nat) :
    ∃ bs : List (K × List (Smp C)),
      (∀ k, Batches (bf k) dl (samplesOf fixed key g k xs) (batchesOf k bs)) ∧
      (groupD D fixed key f dl).Pass (s, ⟨g, b, [], .loop⟩) (outG f b bs)
        (s', ⟨g + xs.length, b + bs.length, [], .loop⟩) := by
  obtain ⟨bs, B, h1, h2, h3, h4⟩ := group_loop_trans (D := D) (f := f) (dl := dl) hf hk hs xs g b [] BucketsWf.nil
  simp only [show ∀ k : K, waiting k ([] : Buckets K (Smp C)) = [] from fun _ => rfl, List.nil_append] at h3
  obtain ⟨bs', B', h5, h6, h7⟩ := group_final_trans (D := D) (fixed := fixed) (key := key) (dl := dl) hf
    (if dl then [] else B.map (·.1)) (g + xs.length) (b + bs.length) B
    (by cases dl <;> simp [h1.nodup])
  have hwl : ∀ k, (waiting k B).length < bf k := by
    intro k
    unfold waiting
    cases hb : bucketGet k B with
    | none => exact hs.1 k
    | some v =>
      obtain ⟨n, l⟩ := v
      have := h1.size _ _ _ hb
      simp only; omega
  have hfullk : ∀ k, ∀ c ∈ batchesOf k bs, c.length = bf k := by
    intro k c hc
    simp only [batchesOf, List.mem_map, List.mem_filter] at hc
    obtain ⟨p, ⟨hp, hpk⟩, rfl⟩ := hc
    rw [h2 p hp]
    congr 1
    simpa using hpk
  refine ⟨bs ++ bs', ?_, ?_⟩
  · intro k
    rw [batchesOf_append, h5]
    have hpos := hs.1 k
    by_cases hc : k ∈ (if dl then [] else B.map (·.1)) ∧ waiting k B ≠ []
    · rw [if_pos hc]
      have hdl : dl = false := by cases dl <;> simp_all
      refine ⟨⟨[], ?_, by simpa using hpos, fun _ => rfl⟩, ?_, ?_⟩
      · simp [h3]
      · intro c hc'
        rw [List.dropLast_concat] at hc'
        exact hfullk k c hc'
      · intro c hc'
        rcases List.mem_append.1 hc' with hc' | hc'
        · have := hfullk k c hc'; omega
        · rw [List.mem_singleton.1 hc']
          refine ⟨List.length_pos_iff.2 hc.2, Nat.le_of_lt (hwl k), ?_⟩
          intro h; rw [hdl] at h; cases h
    · rw [if_neg hc, List.append_nil]
      refine ⟨⟨waiting k B, h3 k, hwl k, ?_⟩, ?_, ?_⟩
      · rintro rfl
        by_contra hne
        apply hc
        refine ⟨?_, hne⟩
        simp only [Bool.false_eq_true, if_false]
        unfold waiting at hne
        cases hb : bucketGet k B with
        | none => rw [hb] at hne; exact absurd rfl hne
        | some v => exact bucketGet_mem hb
      · intro c hc'
        exact hfullk k c (List.mem_of_mem_dropLast hc')
      · intro c hc'
        have := hfullk k c hc'; omega
  · have hpull : (groupW D fixed key f dl).Trans ⟨g + xs.length, b + bs.length, B, .loop⟩ [.fin] []
        ⟨g + xs.length, b + bs.length, B, .final (if dl then [] else B.map (·.1))⟩ :=
      .pullFin (W := groupW D fixed key f dl) (by rfl) .nil
    have ht := (h4.append hpull).append h7
    rw [List.append_nil, List.append_nil, ← List.map_append, ← outG_append, Nat.add_assoc, ← List.length_append] at ht
    have := ht.run_halt (D := D) (x'' := ⟨g + xs.length, b + (bs ++ bs').length, [], .loop⟩) (by rfl) hp
    exact this

/-- Each source sample that has a group is in exactly one batch, and nothing else is in the batches: as multisets (here
for `drop_last = false`), the batches of a pass contain the samples with a group. -/
theorem C28_group_exactly_once (D : Dataset σ (Smp C) κ) (fixed : Option Nat) (key : GroupFn C K)
    (f : BatchFn C C')
    (hf : ∀ i b, f i b ≠ .fatal) (hk : ∀ i a, key i a ≠ .fatal) (bf : K → Nat) (hs : SizeOf fixed key bf)
    (xs : List (Smp C)) (s s' : σ) (hp : D.Pass s xs s') (g b : Nat) :
    ∃ bs : List (K × List (Smp C)),
      (∀ k, (batchesOf k bs).flatten = samplesOf fixed key g k xs) ∧
      (∀ p ∈ bs, 0 < p.2.length ∧ p.2.length ≤ bf p.1) ∧
      (groupD D fixed key f false).Pass (s, ⟨g, b, [], .loop⟩) (outG f b bs)
        (s', ⟨g + xs.length, b + bs.length, [], .loop⟩) := by
  obtain ⟨bs, h1, h2⟩ := C28_group_pass D fixed key f false hf hk bf hs xs s s' hp g b
  refine ⟨bs, ?_, ?_, h2⟩
  · intro k
    obtain ⟨⟨rest, h3, _, h4⟩, _, _⟩ := h1 k
    rw [h3, h4 rfl, List.append_nil]
  · intro p hp
    have := (h1 p.1).last p.2 (by simp only [batchesOf, List.mem_map, List.mem_filter]; exact ⟨p, ⟨hp, by simp⟩, rfl⟩)
    exact ⟨this.1, this.2.1⟩

/-- Without an end of the source: after taking the samples `xs`, only full batches are delivered, and fewer than `bf k`
samples of each group are waiting. -/
theorem C28_group_items (D : Dataset σ (Smp C) κ) (fixed : Option Nat) (key : GroupFn C K) (f : BatchFn C C') (dl : Bool)
    (hf : ∀ i b, f i b ≠ .fatal) (hk : ∀ i a, key i a ≠ .fatal) (bf : K → Nat) (hs : SizeOf fixed key bf)
    (xs : List (Smp C)) (s s' : σ) (hp : D.Items s xs s') (g b : Nat) :
    ∃ bs : List (K × List (Smp C)),
      (∀ k, Batches (bf k) true (samplesOf fixed key g k xs) (batchesOf k bs)) ∧
      ∃ q, (groupD D fixed key f dl).Items (s, ⟨g, b, [], .loop⟩) (outG f b bs) q := by
  obtain ⟨bs, B, h1, h2, h3, h4⟩ := group_loop_trans (D := D) (f := f) (dl := dl) hf hk hs xs g b [] BucketsWf.nil
  simp only [show ∀ k : K, waiting k ([] : Buckets K (Smp C)) = [] from fun _ => rfl, List.nil_append] at h3
  have hfullk : ∀ k, ∀ c ∈ batchesOf k bs, c.length = bf k := by
    intro k c hc
    simp only [batchesOf, List.mem_map, List.mem_filter] at hc
    obtain ⟨p, ⟨hp, hpk⟩, rfl⟩ := hc
    rw [h2 p hp]
    congr 1
    simpa using hpk
  refine ⟨bs, ?_, h4.run_some hp⟩
  intro k
  refine ⟨⟨waiting k B, h3 k, ?_, by simp⟩, ?_, ?_⟩
  · unfold waiting
    cases hb : bucketGet k B with
    | none => exact hs.1 k
    | some v =>
      obtain ⟨n, l⟩ := v
      have := h1.size _ _ _ hb
      simp only; omega
  · intro c hc; exact hfullk k c (List.mem_of_mem_dropLast hc)
  · intro c hc; have := hfullk k c hc; have := hs.1 k; omega

/-- Group by parity, batches of 2. -/
def parity : GroupFn Nat Nat := fun _ a => .group (a.content % 2) none

example : SizeOf (some 2) parity (fun _ => 2) := ⟨by simp, by simp⟩

example : ((groupD (listD [1, 2, 4, 3, 5]) (some 2) parity sumBatch false).eval 40
      (groupD (listD [1, 2, 4, 3, 5]) (some 2) parity sumBatch false).init).take 4
    = [.item ⟨6, [.str "GroupBatchDataset", .num 0, .tup [.num 1], .tup [.num 2]]⟩,
       .item ⟨4, [.str "GroupBatchDataset", .num 1, .tup [.num 0], .tup [.num 3]]⟩,
       .item ⟨5, [.str "GroupBatchDataset", .num 2, .tup [.num 4]]⟩, .fin] := by decide +kernel

/-! ## C34 for grouped batches -/

theorem bucketSet_mem {k : K} {b : Nat} {l : List A} {B : Buckets K A} {p : K × Nat × List A}
    (h : p ∈ bucketSet k b l B) : p = (k, b, l) ∨ p ∈ B := by
  induction B with
  | nil => simpa [bucketSet] using h
  | cons q B ih =>
    obtain ⟨k0, v⟩ := q
    simp only [bucketSet] at h
    split at h
    · rcases List.mem_cons.1 h with h | h
      · exact .inl h
      · exact .inr (by simp [h])
    · rcases List.mem_cons.1 h with h | h
      · exact .inr (by simp [h])
      · rcases ih h with h | h
        · exact .inl h
        · exact .inr (by simp [h])

theorem bucketGet_mem' {k : K} {v : Nat × List A} {B : Buckets K A} (h : bucketGet k B = some v) : (k, v) ∈ B := by
  induction B with
  | nil => cases h
  | cons p B ih =>
    obtain ⟨k0, v0⟩ := p
    simp only [bucketGet] at h
    split at h
    · next h0 => subst h0; cases h; simp
    · simp [ih h]

/-- All samples held come from the source. -/
private def GrpJ (Y : Smp C → Prop) (x : GroupX C K) : Prop :=
  (∀ p ∈ x.buckets, ∀ a ∈ p.2.2, Y a) ∧ ∀ a, x.ctl = .got a → Y a

private theorem GrpJ.set {Y : Smp C → Prop} {B : Buckets K (Smp C)} (h : ∀ p ∈ B, ∀ a ∈ p.2.2, Y a) {k : K} {n : Nat}
    {l : List (Smp C)} (hl : ∀ a ∈ l, Y a) : ∀ p ∈ bucketSet k n l B, ∀ a ∈ p.2.2, Y a := by
  intro p hp
  rcases bucketSet_mem hp with rfl | hp
  · exact hl
  · exact h p hp

private theorem group_flush_cases {f : BatchFn C C'} {x : GroupX C K} {k : K} {nx : GroupCtl C K} :
    (∃ n l c, bucketGet k x.buckets = some (n, l) ∧ f x.bidx l = .ok c ∧ groupFlush f x k nx =
      .emit ⟨c, .str "GroupBatchDataset" :: .num x.bidx :: l.map fun a => .tup a.key⟩
        { x with bidx := x.bidx + 1, buckets := bucketSet k n [] x.buckets, ctl := nx }) ∨
    (∃ n, groupFlush f x k nx = .tau { x with bidx := x.bidx + 1, buckets := bucketSet k n [] x.buckets, ctl := nx }) ∨
    groupFlush f x k nx = .raise := by
  unfold groupFlush
  cases hb : bucketGet k x.buckets with
  | none => exact .inr (.inr rfl)
  | some v =>
    obtain ⟨n, l⟩ := v
    cases hfl : f x.bidx l with
    | ok c => exact .inl ⟨n, l, c, rfl, hfl, by simp [hfl]⟩
    | skip => exact .inr (.inl ⟨n, by simp [hfl]⟩)
    | fatal => exact .inr (.inr (by simp [hfl]))

private theorem group_act_cases (D : Dataset σ (Smp C) κ) (fixed : Option Nat) (key : GroupFn C K) (f : BatchFn C C')
    (dl : Bool) (x : GroupX C K) :
    ((groupW D fixed key f dl).act x = .pull () (fun a => { x with ctl := .got a })
        { x with ctl := .final (if dl then [] else x.buckets.map (·.1)) } ∧ x.ctl = .loop) ∨
    (∃ k nx, (groupW D fixed key f dl).act x = groupFlush f x k nx ∧ ∀ a, nx ≠ .got a) ∨
    (∃ a k n c l, x.ctl = .got a ∧ (l = [] ∨ ∃ n', bucketGet k x.buckets = some (n', l)) ∧ (∀ a, c ≠ .got a) ∧
      (groupW D fixed key f dl).act x = .tau ⟨x.gidx + 1, x.bidx, bucketSet k n (l ++ [a]) x.buckets, c⟩) ∨
    (∃ g c, (∀ a, c ≠ .got a) ∧ (groupW D fixed key f dl).act x = .tau ⟨g, x.bidx, x.buckets, c⟩) ∨
    (groupW D fixed key f dl).act x = .halt { x with buckets := [], ctl := .loop } ∨
    (groupW D fixed key f dl).act x = .raise := by
  obtain ⟨g, b, B, c⟩ := x
  cases c with
  | loop => exact .inl ⟨rfl, rfl⟩
  | got a =>
    simp only [groupW]
    split
    · next k n bs hgs =>
      cases hb : bucketGet k B with
      | none =>
        exact .inr (.inr (.inl ⟨a, k, n, _, [], rfl, .inl rfl, by intro a; split <;> simp, rfl⟩))
      | some v =>
        obtain ⟨n', l⟩ := v
        simp only
        split
        · exact .inr (.inr (.inl ⟨a, k, n, _, l, rfl, .inr ⟨n', hb⟩, by intro a; split <;> simp, rfl⟩))
        · exact .inr (.inr (.inr (.inr (.inr rfl))))
    · exact .inr (.inr (.inr (.inl ⟨_, _, by simp, rfl⟩)))
    · exact .inr (.inr (.inr (.inr (.inr rfl))))
  | flush k => exact .inr (.inl ⟨k, .loop, rfl, by simp⟩)
  | final ks =>
    cases ks with
    | nil => exact .inr (.inr (.inr (.inr (.inl rfl))))
    | cons k ks =>
      simp only [groupW]
      split
      · exact .inr (.inl ⟨k, .final ks, rfl, by simp⟩)
      · exact .inr (.inr (.inr (.inl ⟨_, _, by simp, rfl⟩)))

private theorem group_inv (D : Dataset σ (Smp C) κ) (fixed : Option Nat) (key : GroupFn C K) (f : BatchFn C C')
    (dl : Bool) (r : Bool) :
    WInv (Source.single D) (groupW D fixed key f dl) (D.Paused r) (GrpJ (D.Yields r)) (GrpJ (D.Yields r)) := by
  refine WInv.mk' group_noReset (fun _ h => h) ?_ ?_ ?_ ?_ ?_ <;> intro x
  · intro y x' hx h
    rcases group_act_cases D fixed key f dl x with ⟨ha, _⟩ | ⟨k, nx, ha, hn⟩ | ⟨a, k, n, c, l, _, _, hn, ha⟩ |
      ⟨g, c, hn, ha⟩ | ha | ha <;> rw [h] at ha <;> try (cases ha; done)
    rcases group_flush_cases (f := f) (x := x) (k := k) (nx := nx) with ⟨n, l, c, h1, h2, h3⟩ | ⟨n, h3⟩ | h3 <;>
      rw [h3] at ha <;> cases ha
    exact ⟨GrpJ.set hx.1 (by simp), fun a ha => absurd ha (hn a)⟩
  · intro x' hx h
    rcases group_act_cases D fixed key f dl x with ⟨ha, _⟩ | ⟨k, nx, ha, hn⟩ | ⟨a, k, n, c, l, _, _, hn, ha⟩ |
      ⟨g, c, hn, ha⟩ | ha | ha <;> rw [h] at ha
    · cases ha
    · rcases group_flush_cases (f := f) (x := x) (k := k) (nx := nx) with ⟨n, l, c, h1, h2, h3⟩ | ⟨n, h3⟩ | h3 <;>
        rw [h3] at ha <;> cases ha
    · cases ha
    · cases ha
    · cases ha; exact ⟨by simp, by simp⟩
    · cases ha
  · intro x' hx h
    rcases group_act_cases D fixed key f dl x with ⟨ha, _⟩ | ⟨k, nx, ha, hn⟩ | ⟨a, k, n, c, l, hg, hl, hn, ha⟩ |
      ⟨g, c, hn, ha⟩ | ha | ha <;> rw [h] at ha
    · cases ha
    · rcases group_flush_cases (f := f) (x := x) (k := k) (nx := nx) with ⟨n, l, c, h1, h2, h3⟩ | ⟨n, h3⟩ | h3 <;>
        rw [h3] at ha <;> cases ha
      exact ⟨GrpJ.set hx.1 (by simp), fun a ha => absurd ha (hn a)⟩
    · cases ha
      refine ⟨GrpJ.set hx.1 ?_, fun a ha => absurd ha (hn a)⟩
      intro a' ha'
      rcases List.mem_append.1 ha' with h' | h'
      · rcases hl with rfl | ⟨n', hb⟩
        · cases h'
        · exact hx.1 _ (bucketGet_mem' hb) a' h'
      · rw [List.mem_singleton.1 h']; exact hx.2 a hg
    · cases ha; exact ⟨hx.1, fun a ha => absurd ha (hn a)⟩
    · cases ha
    · cases ha
  · intro i e g hx h a hY
    rcases group_act_cases D fixed key f dl x with ⟨ha, _⟩ | ⟨k, nx, ha, hn⟩ | ⟨a, k, n, c, l, hg, hl, hn, ha⟩ |
      ⟨g, c, hn, ha⟩ | ha | ha <;> rw [h] at ha
    · cases ha
      exact ⟨hx.1, fun a' ha' => by cases ha'; exact hY⟩
    · rcases group_flush_cases (f := f) (x := x) (k := k) (nx := nx) with ⟨n, l, c, h1, h2, h3⟩ | ⟨n, h3⟩ | h3 <;>
        rw [h3] at ha <;> cases ha
    · cases ha
    · cases ha
    · cases ha
    · cases ha
  · intro i e g hx h _
    rcases group_act_cases D fixed key f dl x with ⟨ha, _⟩ | ⟨k, nx, ha, hn⟩ | ⟨a, k, n, c, l, hg, hl, hn, ha⟩ |
      ⟨g, c, hn, ha⟩ | ha | ha <;> rw [h] at ha
    · cases ha
      exact ⟨hx.1, fun a' ha' => by cases ha'⟩
    · rcases group_flush_cases (f := f) (x := x) (k := k) (nx := nx) with ⟨n, l, c, h1, h2, h3⟩ | ⟨n, h3⟩ | h3 <;>
        rw [h3] at ha <;> cases ha
    · cases ha
    · cases ha
    · cases ha
    · cases ha

private theorem group_paused {D : Dataset σ (Smp C) κ} {fixed : Option Nat} {key : GroupFn C K} {f : BatchFn C C'}
    {dl : Bool} {r : Bool} {p : σ × GroupX C K} (h : (groupD D fixed key f dl).Paused r p) :
    D.Paused r p.1 ∧ GrpJ (D.Yields r) p.2 := by
  refine wrap_paused (group_inv D fixed key f dl r) ⟨by simp [groupW], by simp [groupW]⟩ ?_ ?_ h
  · intro x _
    refine ⟨?_, by simp [groupW]⟩
    simp only [groupW, List.map_map]
    intro p hp a ha
    obtain ⟨b, _, rfl⟩ := List.mem_map.1 hp
    cases ha
  · intro _ x _
    exact ⟨by simp [groupW], by simp [groupW]⟩

/-- Grouped batches are restored from their keys (whether or not other batches fail). -/
theorem C34_group (D : Dataset σ (Smp C) κ) (fixed : Option Nat) (key : GroupFn C K) (f : BatchFn C C') (dl : Bool)
    (r : Bool) (hD : D.RestoresSamples r) : (groupD D fixed key f dl).RestoresSamples r := by
  rintro ⟨s, x⟩ a q hp h
  obtain ⟨h1, h2⟩ := group_paused hp
  refine WObs.emits (group_inv D fixed key f dl r)
    (Z := fun a => (groupD D fixed key f dl).restoreSample a.key = some a) ?_ (wrap_obs.1 h) h1 h2
  intro x y x' hx h
  rcases group_act_cases D fixed key f dl x with ⟨ha, _⟩ | ⟨k, nx, ha, hn⟩ | ⟨a, k, n, c, l, hg, hl, hn, ha⟩ |
    ⟨g, c, hn, ha⟩ | ha | ha <;> rw [h] at ha <;> try (cases ha; done)
  rcases group_flush_cases (f := f) (x := x) (k := k) (nx := nx) with ⟨n, l, c, h3, h4, h5⟩ | ⟨n, h5⟩ | h5 <;>
    rw [h5] at ha <;> cases ha
  have hY : ∀ a ∈ l, D.Yields r a := hx.1 _ (bucketGet_mem' h3)
  have e : (keyTuples (l.map fun a => .tup a.key)).bind (fun ks => ks.mapM D.restoreSample) = some l := by
    have := keyTuples_map (l.map (·.key))
    rw [List.map_map] at this
    rw [show (l.map fun a => Key.tup a.key) = l.map (Key.tup ∘ fun x => x.key) from rfl, this]
    exact mapM_restore_yields hD l hY
  simp only [groupD, wrap, groupW, if_true, e, h4]

example : (groupD (listD [1, 2, 4, 3, 5]) (some 2) parity sumBatch false).RestoresSamples :=
  C34_group _ _ _ _ _ _ (listD_restores _ _)

/-! ## C29 -/

/-- If no group is partially filled at the save point (and the pass is not just being finished), the resumed run is
exact. Missing: all other save points, where the property is false (`C29_violated`). -/
theorem C29_group_resumes_partial (D : Dataset σ (Smp C) κ) (fixed : Option Nat) (key : GroupFn C K) (f : BatchFn C C')
    (dl : Bool) (hD : D.ResumesExactly) (s : σ) (x : GroupX C K)
    (hp : (groupD D fixed key f dl).Paused false (s, x)) (hc : x.ctl = .loop) (hb : ∀ b ∈ x.buckets, b.2.2 = []) :
    (groupD D fixed key f dl).Equiv (s, x) ((groupD D fixed key f dl).resume ((groupD D fixed key f dl).save (s, x))) := by
  obtain ⟨h1, _⟩ := group_paused hp
  have hx : (groupW D fixed key f dl).resume ((groupW D fixed key f dl).save x) = x := by
    obtain ⟨g, b, B, c⟩ := x
    simp only at hc hb
    subst hc
    simp only [groupW, List.map_map, GroupX.mk.injEq, and_true, true_and]
    conv_rhs => rw [← List.map_id B]
    apply List.map_congr_left
    rintro ⟨k, n, l⟩ hm
    have := hb _ hm
    simp only at this
    subst this
    rfl
  have e : (groupD D fixed key f dl).resume ((groupD D fixed key f dl).save (s, x)) = (D.resume (D.save s), x) := by
    simp only [groupD, wrap, hx]
  rw [e]
  exact wrap_equiv group_noReset (hD s h1) x

example : (groupD (listD [1, 3, 2, 4]) (some 2) parity sumBatch false).Paused false
      (2, ⟨2, 1, [(1, 2, [])], .loop⟩) :=
  Dataset.after_paused (n := 10) (k := 1) rfl .init

/-- C29 is false: samples 1, 2, 3, 4 grouped by parity in batches of 2. Saved after the first batch (1, 3) the sample 2
is in a bucket; the resumed run has lost it and delivers the incomplete batch (4) instead of (2, 4). -/
theorem C29_violated : (listD [1, 2, 3, 4]).ResumesExactly ∧
    ¬ (groupD (listD [1, 2, 3, 4]) (some 2) parity sumBatch false).ResumesUpToEnd ∧
    ∃ s, (groupD (listD [1, 2, 3, 4]) (some 2) parity sumBatch false).Paused false s ∧
      ((groupD (listD [1, 2, 3, 4]) (some 2) parity sumBatch false).eval 20 s).take 2 =
        [.item ⟨6, [.str "GroupBatchDataset", .num 1, .tup [.num 1], .tup [.num 3]]⟩, .fin] ∧
      ((groupD (listD [1, 2, 3, 4]) (some 2) parity sumBatch false).eval 20
          ((groupD (listD [1, 2, 3, 4]) (some 2) parity sumBatch false).resume
            ((groupD (listD [1, 2, 3, 4]) (some 2) parity sumBatch false).save s))).take 2 =
        [.item ⟨4, [.str "GroupBatchDataset", .num 1, .tup [.num 3]]⟩, .fin] := by
  have hp : (groupD (listD [1, 2, 3, 4]) (some 2) parity sumBatch false).Paused false
      (3, ⟨3, 1, [(1, 2, []), (0, 2, [⟨2, [.num 1]⟩])], .loop⟩) :=
    Dataset.after_paused (n := 20) (k := 1) rfl .init
  refine ⟨listD_resumes _ _, fun h => ?_, _, hp, by decide +kernel, by decide +kernel⟩
  rcases h _ hp with h | ⟨s', h1, h2⟩
  · exact Dataset.not_equiv 20 1 (by decide +kernel) (by decide +kernel) h
  · have h3 := Dataset.Trace.fin h1 .nil
    have h4 := ((groupD (listD [1, 2, 3, 4]) (some 2) parity sumBatch false).eval_trace 20
      (3, ⟨3, 1, [(1, 2, []), (0, 2, [⟨2, [.num 1]⟩])], .loop⟩)).take 1
    have := h3.det h4 (by decide +kernel)
    revert this
    decide +kernel

end Verif.Stream
