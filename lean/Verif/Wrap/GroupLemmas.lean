import Verif.Wrap.GroupModel
import Verif.Wrap.BatchProps

/-! # Lemmas about GroupBatchDataset -/

namespace Verif.Stream

set_option linter.unusedSectionVars false

variable {σ κ C C' K A : Type} [DecidableEq K]

section Buckets

theorem bucketGet_set (k k' : K) (b : Nat) (l : List A) (B : Buckets K A) :
    bucketGet k' (bucketSet k b l B) = if k' = k then some (b, l) else bucketGet k' B := by
  induction B with
  | nil =>
    by_cases h : k' = k
    · subst h; simp [bucketSet, bucketGet]
    · simp [bucketSet, bucketGet, h, Ne.symm h]
  | cons p B ih =>
    obtain ⟨k0, v⟩ := p
    by_cases h0 : k0 = k
    · subst h0
      by_cases h : k' = k0
      · subst h; simp [bucketSet, bucketGet]
      · simp [bucketSet, bucketGet, h, Ne.symm h]
    · simp only [bucketSet, h0, if_false, bucketGet, ih]
      by_cases h : k0 = k'
      · subst h; simp [h0]
      · simp [h]

theorem bucketSet_keys (k : K) (b : Nat) (l : List A) (B : Buckets K A) :
    (bucketSet k b l B).map (·.1) = if k ∈ B.map (·.1) then B.map (·.1) else B.map (·.1) ++ [k] := by
  induction B with
  | nil => simp [bucketSet]
  | cons p B ih =>
    obtain ⟨k0, v⟩ := p
    by_cases h0 : k0 = k
    · subst h0; simp [bucketSet]
    · simp only [bucketSet, h0, if_false, List.map_cons, ih, List.mem_cons, Ne.symm h0, false_or]
      split <;> simp

theorem bucketSet_nodup {k : K} {b : Nat} {l : List A} {B : Buckets K A} (h : (B.map (·.1)).Nodup) :
    ((bucketSet k b l B).map (·.1)).Nodup := by
  rw [bucketSet_keys]
  split
  · exact h
  · next hk =>
    refine List.nodup_append.2 ⟨h, by simp, ?_⟩
    intro a ha b hb he
    rw [List.mem_singleton.1 hb] at he
    exact hk (he ▸ ha)

theorem bucketGet_mem {k : K} {v : Nat × List A} {B : Buckets K A} (h : bucketGet k B = some v) :
    k ∈ B.map (·.1) := by
  induction B with
  | nil => cases h
  | cons p B ih =>
    obtain ⟨k0, v0⟩ := p
    simp only [bucketGet] at h
    split at h
    · next h0 => simp [h0]
    · simp [ih h]

end Buckets

/-- The samples waiting for group `k`. -/
def waiting (k : K) (B : Buckets K A) : List A :=
  match bucketGet k B with
  | some (_, l) => l
  | none => []

theorem waiting_set (k k' : K) (b : Nat) (l : List A) (B : Buckets K A) :
    waiting k' (bucketSet k b l B) = if k' = k then l else waiting k' B := by
  unfold waiting
  rw [bucketGet_set]
  by_cases h : k' = k <;> simp [h]

structure BucketsWf (bf : K → Nat) (B : Buckets K A) : Prop where
  nodup : (B.map (·.1)).Nodup
  size : ∀ k n l, bucketGet k B = some (n, l) → n = bf k ∧ l.length < n

theorem BucketsWf.set {bf : K → Nat} {B : Buckets K A} (h : BucketsWf bf B) {k : K} {l : List A} (hl : l.length < bf k) :
    BucketsWf bf (bucketSet k (bf k) l B) := by
  refine ⟨bucketSet_nodup h.nodup, ?_⟩
  intro k' n l' hg
  rw [bucketGet_set] at hg
  split at hg
  · next hk => cases hg; subst hk; exact ⟨rfl, hl⟩
  · exact h.size _ _ _ hg

theorem BucketsWf.nil {bf : K → Nat} : BucketsWf bf ([] : Buckets K A) := ⟨by simp, by intro k n l h; cases h⟩

theorem bucketSet_set (k : K) (b b' : Nat) (l l' : List A) (B : Buckets K A) :
    bucketSet k b l (bucketSet k b' l' B) = bucketSet k b l B := by
  induction B with
  | nil => simp [bucketSet]
  | cons p B ih =>
    obtain ⟨k0, v⟩ := p
    by_cases h0 : k0 = k
    · subst h0; simp [bucketSet]
    · simp [bucketSet, h0, ih]

/-- The group of the sample with index `i`; `none`: the sample is dropped. -/
def groupKey (fixed : Option Nat) (key : GroupFn C K) (i : Nat) (a : Smp C) : Option K :=
  match key i a, fixed with
  | .group k none, some _ => some k
  | .group k (some _), none => some k
  | _, _ => none

/-- Batch sizes depend only on the group, and are positive. -/
def SizeOf (fixed : Option Nat) (key : GroupFn C K) (bf : K → Nat) : Prop :=
  (∀ k, 0 < bf k) ∧
  match fixed with
  | some n => ∀ k, bf k = n
  | none => ∀ i a k n, key i a = .group k (some n) → n = bf k

/-- The samples of group `k` among `xs`, of which the first one has index `i`. -/
def samplesOf (fixed : Option Nat) (key : GroupFn C K) (i : Nat) (k : K) (xs : List (Smp C)) : List (Smp C) :=
  ((xs.zipIdx i).filter fun p => groupKey fixed key p.2 p.1 = some k).map (·.1)

/-- The batches of group `k`. -/
def batchesOf (k : K) (bs : List (K × List A)) : List (List A) := (bs.filter fun p => p.1 = k).map (·.2)

/-- What is delivered for the batches `bs`, of which the first one has index `i`: those for which the batcher
succeeds. -/
def outG (f : BatchFn C C') (i : Nat) (bs : List (K × List (Smp C))) : List (Smp C') :=
  (bs.zipIdx i).filterMap fun p =>
    match f p.2 p.1.2 with
    | .ok c => some ⟨c, .str "GroupBatchDataset" :: .num p.2 :: p.1.2.map fun a => .tup a.key⟩
    | _ => none

theorem outG_append (f : BatchFn C C') (i : Nat) (bs cs : List (K × List (Smp C))) :
    outG f i (bs ++ cs) = outG f i bs ++ outG f (i + bs.length) cs := by
  simp only [outG, List.zipIdx_append, List.filterMap_append]

theorem batchesOf_append (k : K) (bs cs : List (K × List A)) :
    batchesOf k (bs ++ cs) = batchesOf k bs ++ batchesOf k cs := by simp [batchesOf]

theorem groupSize_eq {fixed : Option Nat} {key : GroupFn C K} {bf : K → Nat} (hs : SizeOf fixed key bf)
    (hk : ∀ i a, key i a ≠ .fatal) (i : Nat) (a : Smp C) :
    groupSize fixed (key i a) = match groupKey fixed key i a with
      | some k => .group (k, bf k) none
      | none => .skip := by
  obtain ⟨_, h2⟩ := hs
  have := hk i a
  unfold groupSize groupKey
  cases hka : key i a with
  | fatal => exact absurd hka this
  | skip => rfl
  | group k b =>
    cases fixed <;> cases b <;> simp only at h2 ⊢
    · rw [h2 i a k _ hka]
    · rw [h2 k]

variable {D : Dataset σ (Smp C) κ} {fixed : Option Nat} {key : GroupFn C K} {f : BatchFn C C'} {dl : Bool}

theorem group_noReset : (groupW D fixed key f dl).NoReset := by
  rintro ⟨g, b, B, c⟩ x' h
  cases c with
  | loop => simp only [groupW] at h; cases h
  | got a =>
    simp only [groupW] at h
    split at h
    · split at h
      · cases h
      · split at h <;> cases h
    · cases h
    · cases h
  | flush k =>
    simp only [groupW, groupFlush] at h
    split at h
    · split at h <;> cases h
    · cases h
  | final ks =>
    cases ks with
    | nil => simp only [groupW] at h; cases h
    | cons k ks =>
      simp only [groupW, groupFlush] at h
      split at h
      · split at h
        · split at h <;> cases h
        · cases h
      · cases h

theorem group_flush_trans (hf : ∀ i b, f i b ≠ .fatal) {g b : Nat} {B : Buckets K (Smp C)} {k : K} {n : Nat}
    {l : List (Smp C)} {c nx : GroupCtl C K}
    (ha : (groupW D fixed key f dl).act ⟨g, b, B, c⟩ = groupFlush f ⟨g, b, B, c⟩ k nx)
    (hg : bucketGet k B = some (n, l)) :
    (groupW D fixed key f dl).Trans ⟨g, b, B, c⟩ [] ((outG f b [(k, l)]).map .item)
      ⟨g, b + 1, bucketSet k n [] B, nx⟩ := by
  simp only [groupFlush, hg] at ha
  cases h : f b l with
  | ok r =>
    rw [h] at ha
    have : outG f b [(k, l)] = [⟨r, .str "GroupBatchDataset" :: .num b :: l.map fun a => .tup a.key⟩] := by
      simp [outG, h]
    rw [this]
    exact .emit (W := groupW D fixed key f dl) (x := ⟨g, b, B, c⟩) ha .nil
  | skip =>
    rw [h] at ha
    have : outG f b [(k, l)] = [] := by simp [outG, h]
    rw [this]
    exact .tau (W := groupW D fixed key f dl) (x := ⟨g, b, B, c⟩) ha .nil
  | fatal => exact absurd h (hf _ _)

theorem samplesOf_cons (i : Nat) (k : K) (a : Smp C) (xs : List (Smp C)) :
    samplesOf fixed key i k (a :: xs) =
      (if groupKey fixed key i a = some k then [a] else []) ++ samplesOf fixed key (i + 1) k xs := by
  simp only [samplesOf, List.zipIdx_cons, List.filter_cons]
  by_cases h : groupKey fixed key i a = some k <;> simp [h]

theorem group_loop_trans (hf : ∀ i b, f i b ≠ .fatal) (hk : ∀ i a, key i a ≠ .fatal) {bf : K → Nat}
    (hs : SizeOf fixed key bf) (xs : List (Smp C)) :
    ∀ (g b : Nat) (B : Buckets K (Smp C)), BucketsWf bf B →
    ∃ bs B', BucketsWf bf B' ∧ (∀ p ∈ bs, p.2.length = bf p.1) ∧
      (∀ k, waiting k B ++ samplesOf fixed key g k xs = (batchesOf k bs).flatten ++ waiting k B') ∧
      (groupW D fixed key f dl).Trans ⟨g, b, B, .loop⟩ (xs.map .item) ((outG f b bs).map .item)
        ⟨g + xs.length, b + bs.length, B', .loop⟩ := by
  induction xs with
  | nil =>
    intro g b B hB
    exact ⟨[], B, hB, by simp, by simp [samplesOf, batchesOf], .nil⟩
  | cons a xs ih =>
    intro g b B hB
    have hact : (groupW D fixed key f dl).act ⟨g, b, B, .loop⟩ =
      .pull () (fun a => ⟨g, b, B, .got a⟩) ⟨g, b, B, .final (if dl then [] else B.map (·.1))⟩ := rfl
    have hgs := groupSize_eq hs hk g a
    have hlen : g + 1 + xs.length = g + (a :: xs).length := by simp; omega
    cases hga : groupKey fixed key g a with
    | none =>
      obtain ⟨bs, B', h1, h2, h3, h4⟩ := ih (g + 1) b B hB
      refine ⟨bs, B', h1, h2, ?_, ?_⟩
      · intro k; rw [samplesOf_cons, hga]; simpa using h3 k
      · rw [hlen] at h4
        refine .pullItem (W := groupW D fixed key f dl) (x := ⟨g, b, B, .loop⟩) hact (.tau (W := groupW D fixed key f dl) ?_ h4)
        simp only [groupW, hgs, hga]
    | some k =>
      rw [hga] at hgs
      simp only at hgs
      have hpos := hs.1 k
      -- the state after putting the sample into its bucket
      have hput : (groupW D fixed key f dl).act ⟨g, b, B, .got a⟩ =
          .tau ⟨g + 1, b, bucketSet k (bf k) (waiting k B ++ [a]) B,
            if bf k ≤ (waiting k B).length + 1 then .flush k else .loop⟩ := by
        cases hb : bucketGet k B with
        | none =>
          have hw : waiting k B = [] := by simp [waiting, hb]
          simp [groupW, hgs, hb, hw]
        | some v =>
          obtain ⟨n, l⟩ := v
          have hw : waiting k B = l := by simp [waiting, hb]
          have := hB.size _ _ _ hb
          simp [groupW, hgs, hb, hw, this.1]
      have hw : (waiting k B).length < bf k := by
        unfold waiting
        cases hb : bucketGet k B with
        | none => exact hpos
        | some v =>
          obtain ⟨n, l⟩ := v
          have := hB.size _ _ _ hb
          simp only; omega
      by_cases hfull : bf k ≤ (waiting k B).length + 1
      · rw [if_pos hfull] at hput
        have hB' : BucketsWf bf (bucketSet k (bf k) [] B) := hB.set (by simpa using hpos)
        obtain ⟨bs, B', h1, h2, h3, h4⟩ := ih (g + 1) (b + 1) _ hB'
        refine ⟨(k, waiting k B ++ [a]) :: bs, B', h1, ?_, ?_, ?_⟩
        · intro p hp
          rcases List.mem_cons.1 hp with rfl | hp
          · simp; omega
          · exact h2 p hp
        · intro k'
          rw [samplesOf_cons, hga]
          have := h3 k'
          rw [waiting_set] at this
          by_cases hkk : k' = k
          · subst hkk
            simp only [if_true, List.nil_append] at this
            simp [batchesOf, this]
          · simp only [hkk, if_false] at this
            have h' : ¬ some k = some k' := by simpa using Ne.symm hkk
            rw [if_neg h', List.nil_append, this]
            simp [batchesOf, Ne.symm hkk]
        · refine .pullItem (W := groupW D fixed key f dl) (x := ⟨g, b, B, .loop⟩) hact
            (.tau (W := groupW D fixed key f dl) hput ?_)
          have hfl := group_flush_trans (D := D) (fixed := fixed) (key := key) (dl := dl) hf (g := g + 1) (b := b)
            (B := bucketSet k (bf k) (waiting k B ++ [a]) B) (k := k) (n := bf k) (l := waiting k B ++ [a])
            (c := .flush k) (nx := .loop) rfl (by rw [bucketGet_set]; simp)
          rw [bucketSet_set] at hfl
          have := hfl.append h4
          rw [List.nil_append, ← List.map_append] at this
          have e1 := outG_append f b [(k, waiting k B ++ [a])] bs
          simp only [List.singleton_append, List.length_singleton] at e1
          rw [← e1, hlen, show b + 1 + bs.length = b + ((k, waiting k B ++ [a]) :: bs).length by simp; omega] at this
          exact this
      · rw [if_neg hfull] at hput
        have hB' : BucketsWf bf (bucketSet k (bf k) (waiting k B ++ [a]) B) := hB.set (by simp; omega)
        obtain ⟨bs, B', h1, h2, h3, h4⟩ := ih (g + 1) b _ hB'
        refine ⟨bs, B', h1, h2, ?_, ?_⟩
        · intro k'
          rw [samplesOf_cons, hga]
          have := h3 k'
          rw [waiting_set] at this
          by_cases hkk : k' = k
          · subst hkk
            simpa using this
          · simp only [hkk, if_false] at this
            have h' : ¬ some k = some k' := by simpa using Ne.symm hkk
            rw [if_neg h', List.nil_append, this]
        · rw [hlen] at h4
          exact .pullItem (W := groupW D fixed key f dl) (x := ⟨g, b, B, .loop⟩) hact
            (.tau (W := groupW D fixed key f dl) hput h4)

theorem group_final_trans (hf : ∀ i b, f i b ≠ .fatal) (ks : List K) :
    ∀ (g b : Nat) (B : Buckets K (Smp C)), ks.Nodup →
    ∃ bs B', (∀ k, batchesOf k bs = if k ∈ ks ∧ waiting k B ≠ [] then [waiting k B] else []) ∧
      (∀ p ∈ bs, p.2 = waiting p.1 B ∧ p.2 ≠ []) ∧
      (groupW D fixed key f dl).Trans ⟨g, b, B, .final ks⟩ [] ((outG f b bs).map .item)
        ⟨g, b + bs.length, B', .final []⟩ := by
  induction ks with
  | nil =>
    intro g b B _
    exact ⟨[], B, by simp [batchesOf], by simp, .nil⟩
  | cons k ks ih =>
    intro g b B hn
    obtain ⟨hk1, hn⟩ := List.nodup_cons.1 hn
    by_cases hw : waiting k B = []
    · obtain ⟨bs, B', h1, h2, h3⟩ := ih g b B hn
      refine ⟨bs, B', ?_, h2, .tau (W := groupW D fixed key f dl) ?_ h3⟩
      · intro k'
        rw [h1]
        by_cases hkk : k' = k
        · subst hkk; simp [hw]
        · simp [hkk]
      · unfold waiting at hw
        simp only [groupW]
        cases hb : bucketGet k B with
        | none => rfl
        | some v =>
          obtain ⟨n, l⟩ := v
          rw [hb] at hw
          simp only at hw
          subst hw
          rfl
    · have hb : ∃ n a l, bucketGet k B = some (n, a :: l) ∧ waiting k B = a :: l := by
        unfold waiting at hw ⊢
        cases hb : bucketGet k B with
        | none => rw [hb] at hw; simp at hw
        | some v =>
          obtain ⟨n, l⟩ := v
          rw [hb] at hw
          cases l with
          | nil => simp at hw
          | cons a l => exact ⟨n, a, l, rfl, rfl⟩
      obtain ⟨n, a, l, hb, hwl⟩ := hb
      obtain ⟨bs, B', h1, h2, h3⟩ := ih g (b + 1) (bucketSet k n [] B) hn
      have hfl := group_flush_trans (D := D) (fixed := fixed) (key := key) (dl := dl) hf (g := g) (b := b)
        (B := B) (k := k) (n := n) (l := a :: l) (c := .final (k :: ks)) (nx := .final ks)
        (by simp only [groupW, hb]) hb
      have hne : ∀ p ∈ bs, p.1 ≠ k := by
        intro p hp he
        have := h2 p hp
        rw [he, waiting_set] at this
        simp at this
      refine ⟨(k, a :: l) :: bs, B', ?_, ?_, ?_⟩
      · intro k'
        by_cases hkk : k' = k
        · subst hkk
          have : batchesOf k' bs = [] := by
            simp only [batchesOf, List.map_eq_nil_iff, List.filter_eq_nil_iff]
            intro p hp; simpa using hne p hp
          simp [batchesOf] at this ⊢
          rw [List.filter_eq_nil_iff.2 (by intro p hp; simpa using hne p hp)]
          simp [hwl]
        · have := h1 k'
          rw [waiting_set] at this
          simp only [hkk, if_false] at this
          simp only [List.mem_cons, hkk, false_or]
          rw [← this]
          simp [batchesOf, Ne.symm hkk]
      · intro p hp
        rcases List.mem_cons.1 hp with rfl | hp
        · exact ⟨hwl.symm, by simp⟩
        · have := h2 p hp
          rw [waiting_set] at this
          simpa [hne p hp] using this
      · have := hfl.append h3
        rw [List.nil_append, ← List.map_append] at this
        have e1 := outG_append f b [(k, a :: l)] bs
        simp only [List.singleton_append, List.length_singleton] at e1
        rw [← e1, show b + 1 + bs.length = b + ((k, a :: l) :: bs).length by simp; omega] at this
        exact this

end Verif.Stream
