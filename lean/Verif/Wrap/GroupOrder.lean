import Verif.Wrap.GroupProps

/-! # C28: which batches are formed, and in which order -/

namespace Verif.Stream

set_option linter.unusedSectionVars false

variable {σ κ C C' K α : Type} [DecidableEq K]

/-! ### Specification -/

/-- The members of group `k`, in order. -/
def membersOf (k : K) (l : List (K × α)) : List α := (l.filter (·.1 = k)).map (·.2)

/-- The batch that the member number `p` completes, if any: the number of members of its group so far is a multiple of the batch size of the group. -/
def completes (size : K → Nat) (l : List (K × α)) (p : Nat) : Option (K × List α) :=
  l[p]?.bind fun q =>
    let m := membersOf q.1 (l.take (p + 1))
    if size q.1 ∣ m.length then some (q.1, m.drop (m.length - size q.1)) else none

/-- The full batches, in the order in which they are completed. -/
def fullBatches (size : K → Nat) (l : List (K × α)) : List (K × List α) := (List.range l.length).filterMap (completes size l)

/-- The members of group `k` that are in no full batch. -/
def leftover (size : K → Nat) (k : K) (l : List (K × α)) : List α := (membersOf k l).drop ((membersOf k l).length / size k * size k)

/-- The incomplete batches, in the order in which the groups have appeared. -/
def leftovers (size : K → Nat) (l : List (K × α)) : List (K × List α) :=
  (l.map (·.1)).eraseDups.filterMap fun k => if (leftover size k l).isEmpty then none else some (k, leftover size k l)

/-- All batches of a pass over the samples `l`, given with their groups. -/
def groupedBatches (size : K → Nat) (dropLast : Bool) (l : List (K × α)) : List (K × List α) :=
  fullBatches size l ++ if dropLast then [] else leftovers size l

/-- The samples that have a group, with their groups; the first sample has index `i`. -/
def keyed (fixed : Option Nat) (key : GroupFn C K) (i : Nat) (xs : List (Smp C)) : List (K × Smp C) :=
  (xs.zipIdx i).filterMap fun p => (groupKey fixed key p.2 p.1).map (·, p.1)

/-! ### Proofs -/

theorem membersOf_append (k : K) (l m : List (K × α)) : membersOf k (l ++ m) = membersOf k l ++ membersOf k m := by simp [membersOf]

theorem membersOf_one (k k' : K) (a : α) : membersOf k [(k', a)] = if k' = k then [a] else [] := by
  by_cases h : k' = k <;> simp [membersOf, h]

/-- The full batches completed by the members of the second list, after the first one. -/
def newBatches (size : K → Nat) : List (K × α) → List (K × α) → List (K × List α)
  | _, [] => []
  | pre, q :: l =>
    (if size q.1 ∣ (membersOf q.1 (pre ++ [q])).length then
      [(q.1, (membersOf q.1 (pre ++ [q])).drop ((membersOf q.1 (pre ++ [q])).length - size q.1))] else []) ++ newBatches size (pre ++ [q]) l

theorem newBatches_eq (size : K → Nat) (pre l : List (K × α)) :
    newBatches size pre l = (List.range' pre.length l.length).filterMap (completes size (pre ++ l)) := by
  induction l generalizing pre with
  | nil => rfl
  | cons q l ih =>
    have e : completes size (pre ++ q :: l) pre.length =
        if size q.1 ∣ (membersOf q.1 (pre ++ [q])).length then
          some (q.1, (membersOf q.1 (pre ++ [q])).drop ((membersOf q.1 (pre ++ [q])).length - size q.1)) else none := by
      have h1 : (pre ++ q :: l)[pre.length]? = some q := by simp
      have h2 : (pre ++ q :: l).take (pre.length + 1) = pre ++ [q] := by
        rw [List.take_append]; simp
      unfold completes
      rw [h1, h2]
      rfl
    have ih := ih (pre ++ [q])
    rw [List.length_append, List.length_singleton, List.append_assoc, List.singleton_append] at ih
    rw [newBatches, List.length_cons, List.range'_succ, List.filterMap_cons, e, ih]
    split <;> simp

theorem fullBatches_eq (size : K → Nat) (l : List (K × α)) : fullBatches size l = newBatches size [] l := by
  rw [newBatches_eq, fullBatches, List.range_eq_range']
  rfl

theorem leftover_put {size : K → Nat} (hpos : ∀ k, 0 < size k) (pre : List (K × α)) (k : K) (a : α) (k' : K) :
    leftover size k' (pre ++ [(k, a)]) =
      if k' = k then (if size k ≤ (leftover size k pre).length + 1 then [] else leftover size k pre ++ [a]) else leftover size k' pre := by
  unfold leftover
  rw [membersOf_append, membersOf_one]
  by_cases h : k' = k
  · subst h
    rw [if_pos rfl, if_pos rfl]
    generalize membersOf k' pre = m
    have hp := hpos k'
    generalize size k' = n at hp
    rw [List.length_drop, List.length_append, List.length_singleton]
    have h1 := Nat.div_add_mod m.length n
    have h2 := Nat.mod_lt m.length hp
    have h3 : m.length / n * n + m.length % n = m.length := by rw [Nat.mul_comm]; exact h1
    by_cases hf : n ≤ m.length - m.length / n * n + 1
    · rw [if_pos hf]
      have h4 : m.length + 1 = (m.length / n + 1) * n := by rw [Nat.add_mul, Nat.one_mul]; omega
      have h5 : (m.length + 1) / n * n = m.length + 1 := by rw [h4, Nat.mul_div_cancel _ hp]
      rw [h5, List.drop_eq_nil_of_le (by simp)]
    · rw [if_neg hf]
      have h4 : (m.length + 1) / n = m.length / n := by
        apply Nat.div_eq_of_lt_le
        · omega
        · rw [Nat.add_mul, Nat.one_mul]; omega
      rw [h4, List.drop_append_of_le_length (by omega)]
  · rw [if_neg (Ne.symm h), if_neg h, List.append_nil]

theorem completed {size : K → Nat} (hpos : ∀ k, 0 < size k) (pre : List (K × α)) (k : K) (a : α) :
    newBatches size pre [(k, a)] = if size k ≤ (leftover size k pre).length + 1 then [(k, leftover size k pre ++ [a])] else [] := by
  simp only [newBatches, List.append_nil]
  unfold leftover
  rw [membersOf_append, membersOf_one, if_pos rfl]
  generalize membersOf k pre = m
  have hp := hpos k
  generalize size k = n at hp
  rw [List.length_drop, List.length_append, List.length_singleton]
  have h1 := Nat.div_add_mod m.length n
  have h2 := Nat.mod_lt m.length hp
  have h3 : m.length / n * n + m.length % n = m.length := by rw [Nat.mul_comm]; exact h1
  by_cases hf : n ≤ m.length - m.length / n * n + 1
  · have h4 : m.length + 1 = (m.length / n + 1) * n := by rw [Nat.add_mul, Nat.one_mul]; omega
    rw [if_pos hf, if_pos ⟨_, h4.trans (Nat.mul_comm _ _)⟩, List.drop_append_of_le_length (by omega)]
    congr 3
    congr 1
    omega
  · rw [if_neg hf, if_neg]
    intro hd
    have h4 : (m.length + 1) % n = 0 := Nat.mod_eq_zero_of_dvd hd
    have h5 : (m.length + 1) % n = m.length % n + 1 := by
      rw [Nat.add_mod]
      rcases Nat.lt_or_ge 1 n with h | h
      · rw [Nat.mod_eq_of_lt h, Nat.mod_eq_of_lt (by omega)]
      · omega
    omega

theorem newBatches_cons (size : K → Nat) (pre : List (K × α)) (q : K × α) (l : List (K × α)) :
    newBatches size pre (q :: l) = newBatches size pre [q] ++ newBatches size (pre ++ [q]) l := by
  simp [newBatches]

theorem eraseDups_snoc (l : List K) (k : K) : (l ++ [k]).eraseDups = if k ∈ l then l.eraseDups else l.eraseDups ++ [k] := by
  rw [List.eraseDups_append]
  by_cases h : k ∈ l
  · simp [h, List.removeAll]
  · simp [h, List.removeAll, List.eraseDups_cons]

/-- The buckets after the samples `pre`. -/
structure Holds (bf : K → Nat) (pre : List (K × Smp C)) (B : Buckets K (Smp C)) : Prop where
  wf : BucketsWf bf B
  keys : B.map (·.1) = (pre.map (·.1)).eraseDups
  waiting : ∀ k, waiting k B = leftover bf k pre

theorem Holds.set {bf : K → Nat} (hpos : ∀ k, 0 < bf k) {pre : List (K × Smp C)} {B : Buckets K (Smp C)} (h : Holds bf pre B) (k : K) (a : Smp C) :
    Holds bf (pre ++ [(k, a)]) (bucketSet k (bf k) (leftover bf k (pre ++ [(k, a)])) B) where
  wf := by
    refine h.wf.set ?_
    unfold leftover
    rw [List.length_drop]
    have h1 := Nat.div_add_mod (membersOf k (pre ++ [(k, a)])).length (bf k)
    have h2 := Nat.mod_lt (membersOf k (pre ++ [(k, a)])).length (hpos k)
    rw [Nat.mul_comm] at h1
    omega
  keys := by
    rw [bucketSet_keys, h.keys, List.map_append, List.map_singleton, eraseDups_snoc]
    simp only [List.mem_eraseDups]
  waiting := by
    intro k'
    rw [waiting_set]
    by_cases hk : k' = k
    · subst hk
      rw [if_pos rfl]
    · rw [if_neg hk, leftover_put hpos, if_neg hk, h.waiting]

variable {D : Dataset σ (Smp C) κ} {fixed : Option Nat} {key : GroupFn C K} {f : BatchFn C C'} {dl : Bool}

theorem keyed_cons (i : Nat) (a : Smp C) (xs : List (Smp C)) :
    keyed fixed key i (a :: xs) = (match groupKey fixed key i a with | some k => [(k, a)] | none => []) ++ keyed fixed key (i + 1) xs := by
  simp only [keyed, List.zipIdx_cons, List.filterMap_cons]
  cases groupKey fixed key i a <;> rfl

theorem group_order_loop (hf : ∀ i b, f i b ≠ .fatal) (hk : ∀ i a, key i a ≠ .fatal) {bf : K → Nat}
    (hs : SizeOf fixed key bf) (xs : List (Smp C)) :
    ∀ (g b : Nat) (pre : List (K × Smp C)) (B : Buckets K (Smp C)), Holds bf pre B →
    ∃ B', Holds bf (pre ++ keyed fixed key g xs) B' ∧
      (groupW D fixed key f dl).Trans ⟨g, b, B, .loop⟩ (xs.map .item) ((outG f b (newBatches bf pre (keyed fixed key g xs))).map .item)
        ⟨g + xs.length, b + (newBatches bf pre (keyed fixed key g xs)).length, B', .loop⟩ := by
  induction xs with
  | nil =>
    intro g b pre B hB
    exact ⟨B, by simpa [keyed] using hB, .nil⟩
  | cons a xs ih =>
    intro g b pre B hB
    have hact : (groupW D fixed key f dl).act ⟨g, b, B, .loop⟩ =
      .pull () (fun a => ⟨g, b, B, .got a⟩) ⟨g, b, B, .final (if dl then [] else B.map (·.1))⟩ := rfl
    have hgs := groupSize_eq hs hk g a
    have hlen : g + 1 + xs.length = g + (a :: xs).length := by simp; omega
    rw [keyed_cons]
    cases hga : groupKey fixed key g a with
    | none =>
      obtain ⟨B', h1, h4⟩ := ih (g + 1) b pre B hB
      refine ⟨B', by simpa using h1, ?_⟩
      rw [hlen] at h4
      refine .pullItem (W := groupW D fixed key f dl) (x := ⟨g, b, B, .loop⟩) hact (.tau (W := groupW D fixed key f dl) ?_ h4)
      simp only [groupW, hgs, hga]
    | some k =>
      rw [hga] at hgs
      simp only at hgs
      have hput : (groupW D fixed key f dl).act ⟨g, b, B, .got a⟩ =
          .tau ⟨g + 1, b, bucketSet k (bf k) (waiting k B ++ [a]) B,
            if bf k ≤ (waiting k B).length + 1 then .flush k else .loop⟩ := by
        cases hb : bucketGet k B with
        | none =>
          have hw : waiting k B = [] := by simp [waiting, hb]
          simp [groupW, hgs, hb, hw]
        | some v =>
          obtain ⟨n, l⟩ := v
          have hw : waiting k B = l := by simp [waiting, hb]
          have := hB.wf.size _ _ _ hb
          simp [groupW, hgs, hb, hw, this.1]
      have hset := hB.set hs.1 k a
      rw [leftover_put hs.1, if_pos rfl] at hset
      have hw := hB.waiting k
      rw [hw] at hput
      simp only [List.singleton_append]
      rw [newBatches_cons, completed hs.1]
      by_cases hfull : bf k ≤ (leftover bf k pre).length + 1
      · rw [if_pos hfull] at hput hset ⊢
        obtain ⟨B', h1, h4⟩ := ih (g + 1) (b + 1) _ _ hset
        refine ⟨B', by simpa using h1, ?_⟩
        refine .pullItem (W := groupW D fixed key f dl) (x := ⟨g, b, B, .loop⟩) hact
            (.tau (W := groupW D fixed key f dl) hput ?_)
        have hfl := group_flush_trans (D := D) (fixed := fixed) (key := key) (dl := dl) hf (g := g + 1) (b := b)
          (B := bucketSet k (bf k) (leftover bf k pre ++ [a]) B) (k := k) (n := bf k) (l := leftover bf k pre ++ [a])
          (c := .flush k) (nx := .loop) rfl (by rw [bucketGet_set]; simp)
        rw [bucketSet_set] at hfl
        have := hfl.append h4
        rw [List.nil_append, ← List.map_append] at this
        have e1 := outG_append f b [(k, leftover bf k pre ++ [a])] (newBatches bf (pre ++ [(k, a)]) (keyed fixed key (g + 1) xs))
        simp only [List.length_singleton] at e1
        rw [← e1, hlen] at this
        rw [List.length_append, List.length_singleton, ← Nat.add_assoc]
        exact this
      · rw [if_neg hfull] at hput hset ⊢
        obtain ⟨B', h1, h4⟩ := ih (g + 1) b _ _ hset
        refine ⟨B', by simpa using h1, ?_⟩
        rw [hlen] at h4
        exact .pullItem (W := groupW D fixed key f dl) (x := ⟨g, b, B, .loop⟩) hact
          (.tau (W := groupW D fixed key f dl) hput h4)

theorem group_order_final (hf : ∀ i b, f i b ≠ .fatal) (ks : List K) :
    ∀ (g b : Nat) (B : Buckets K (Smp C)), ks.Nodup →
    ∃ B', (groupW D fixed key f dl).Trans ⟨g, b, B, .final ks⟩ []
        ((outG f b (ks.filterMap fun k => if (waiting k B).isEmpty then none else some (k, waiting k B))).map .item)
        ⟨g, b + (ks.filterMap fun k => if (waiting k B).isEmpty then none else some (k, waiting k B)).length, B', .final []⟩ := by
  induction ks with
  | nil => intro g b B _; exact ⟨B, .nil⟩
  | cons k ks ih =>
    intro g b B hn
    obtain ⟨hk1, hn⟩ := List.nodup_cons.1 hn
    rw [List.filterMap_cons]
    by_cases hw : waiting k B = []
    · obtain ⟨B', h3⟩ := ih g b B hn
      rw [hw]
      refine ⟨B', .tau (W := groupW D fixed key f dl) ?_ h3⟩
      unfold waiting at hw
      simp only [groupW]
      cases hb : bucketGet k B with
      | none => rfl
      | some v =>
        obtain ⟨n, l⟩ := v
        rw [hb] at hw
        simp only at hw
        subst hw
        rfl
    · have hb : ∃ n a l, bucketGet k B = some (n, a :: l) ∧ waiting k B = a :: l := by
        unfold waiting at hw ⊢
        cases hb : bucketGet k B with
        | none => rw [hb] at hw; simp at hw
        | some v =>
          obtain ⟨n, l⟩ := v
          rw [hb] at hw
          cases l with
          | nil => simp at hw
          | cons a l => exact ⟨n, a, l, rfl, rfl⟩
      obtain ⟨n, a, l, hb, hwl⟩ := hb
      obtain ⟨B', h3⟩ := ih g (b + 1) (bucketSet k n [] B) hn
      have e : (ks.filterMap fun k' => if (waiting k' (bucketSet k n [] B)).isEmpty then none else some (k', waiting k' (bucketSet k n [] B))) =
          ks.filterMap fun k' => if (waiting k' B).isEmpty then none else some (k', waiting k' B) := by
        refine List.filterMap_congr fun k' hk' => ?_
        have hne : k' ≠ k := by
          rintro rfl
          exact hk1 hk'
        simp only [waiting_set, if_neg hne]
      rw [e] at h3
      have hfl := group_flush_trans (D := D) (fixed := fixed) (key := key) (dl := dl) hf (g := g) (b := b)
        (B := B) (k := k) (n := n) (l := a :: l) (c := .final (k :: ks)) (nx := .final ks)
        (by simp only [groupW, hb]) hb
      rw [hwl]
      simp only [List.isEmpty_cons, Bool.false_eq_true, if_false]
      refine ⟨B', ?_⟩
      have := hfl.append h3
      generalize (ks.filterMap fun k' => if (waiting k' B).isEmpty then none else some (k', waiting k' B)) = bs at *
      rw [List.nil_append, ← List.map_append] at this
      have e1 := outG_append f b [(k, a :: l)] bs
      simp only [List.singleton_append, List.length_singleton] at e1
      rw [← e1, show b + 1 + bs.length = b + ((k, a :: l) :: bs).length by simp; omega] at this
      exact this

/-- **C28**, the order: a pass delivers the batch of a group as soon as its last sample has been taken, and at the end (unless `drop_last`) the incomplete batches of the groups, in the order in which the groups have
first appeared. -/
theorem C28_group_order (D : Dataset σ (Smp C) κ) (fixed : Option Nat) (key : GroupFn C K) (f : BatchFn C C') (dl : Bool)
    (hf : ∀ i b, f i b ≠ .fatal) (hk : ∀ i a, key i a ≠ .fatal) (bf : K → Nat) (hs : SizeOf fixed key bf)
    (xs : List (Smp C)) (s s' : σ) (hp : D.Pass s xs s') (g b : Nat) :
    (groupD D fixed key f dl).Pass (s, ⟨g, b, [], .loop⟩) (outG f b (groupedBatches bf dl (keyed fixed key g xs)))
      (s', ⟨g + xs.length, b + (groupedBatches bf dl (keyed fixed key g xs)).length, [], .loop⟩) := by
  obtain ⟨B, h1, h4⟩ := group_order_loop (D := D) (f := f) (dl := dl) hf hk hs xs g b [] []
    ⟨.nil, rfl, fun k => by simp [waiting, bucketGet, leftover, membersOf]⟩
  rw [List.nil_append] at h1
  rw [← fullBatches_eq] at h4
  have hnd : (if dl then [] else B.map (·.1)).Nodup := by cases dl <;> simp [h1.wf.nodup]
  obtain ⟨B', h7⟩ := group_order_final (D := D) (fixed := fixed) (key := key) (dl := dl) (f := f) hf
    (if dl then [] else B.map (·.1)) (g + xs.length) (b + (fullBatches bf (keyed fixed key g xs)).length) B hnd
  have e : ((if dl then [] else B.map (·.1)).filterMap fun k => if (waiting k B).isEmpty then none else some (k, waiting k B)) =
      if dl then [] else leftovers bf (keyed fixed key g xs) := by
    cases dl with
    | true => rfl
    | false =>
      simp only [Bool.false_eq_true, if_false, leftovers, h1.keys, h1.waiting]
  rw [e] at h7
  have hpull : (groupW D fixed key f dl).Trans ⟨g + xs.length, b + (fullBatches bf (keyed fixed key g xs)).length, B, .loop⟩ [.fin] []
      ⟨g + xs.length, b + (fullBatches bf (keyed fixed key g xs)).length, B, .final (if dl then [] else B.map (·.1))⟩ :=
    .pullFin (W := groupW D fixed key f dl) (by rfl) .nil
  have ht := (h4.append hpull).append h7
  rw [List.append_nil, List.append_nil, ← List.map_append, ← outG_append, Nat.add_assoc, ← List.length_append] at ht
  exact ht.run_halt (D := D) (x'' := ⟨g + xs.length, b + (groupedBatches bf dl (keyed fixed key g xs)).length, [], .loop⟩) (by rfl) hp

/-- Without an end of the source: the full batches, in the order in which they are completed. -/
theorem C28_group_order_items (D : Dataset σ (Smp C) κ) (fixed : Option Nat) (key : GroupFn C K) (f : BatchFn C C') (dl : Bool)
    (hf : ∀ i b, f i b ≠ .fatal) (hk : ∀ i a, key i a ≠ .fatal) (bf : K → Nat) (hs : SizeOf fixed key bf)
    (xs : List (Smp C)) (s s' : σ) (hp : D.Items s xs s') (g b : Nat) :
    ∃ q, (groupD D fixed key f dl).Items (s, ⟨g, b, [], .loop⟩) (outG f b (fullBatches bf (keyed fixed key g xs))) q := by
  obtain ⟨B, h1, h4⟩ := group_order_loop (D := D) (f := f) (dl := dl) hf hk hs xs g b [] []
    ⟨.nil, rfl, fun k => by simp [waiting, bucketGet, leftover, membersOf]⟩
  rw [← fullBatches_eq] at h4
  exact h4.run_some hp

/-- The specification, on an example: groups of numbers by remainder modulo 3, batches of 2. -/
example : groupedBatches (fun _ => 2) false ([4, 5, 7, 3, 8, 2, 6, 0].map fun n => (n % 3, n)) =
    [(1, [4, 7]), (2, [5, 8]), (0, [3, 6]), (2, [2]), (0, [0])] := by decide +kernel

end Verif.Stream
