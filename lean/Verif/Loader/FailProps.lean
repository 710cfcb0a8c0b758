import Verif.Loader.FailModel
import Verif.Loader.TorchProps

/-!
# C116: an exception in a worker process reaches the user once, in its turn

In words: if the dataset of a worker raises an exception (that no handler takes), `next` of the loader raises it, once, in its turn after the samples of this worker before it; nothing else is lost; the states saved
afterwards do not count it; and the user can go on iterating.

False of the code in one point: going on, the worker that raised does not deliver any samples until the iteration is over for all workers (for training: never).
-/

namespace Verif.Loader

variable {α E : Type} {n : Nat} {raw : Nat → Nat → Raw α E}

theorem life_sticky : Sticky fun w => life (raw w) := by
  intro w k h
  simp only [life] at h ⊢
  rw [if_neg]
  rw [List.range_succ, List.all_append]
  split at h
  · cases e : raw w k with
    | sample a => rw [e] at h; cases h
    | raise a => rw [e] at h; cases h
    | stop => simp [e, Raw.isSample]
  · rename_i hc
    simp only [Bool.and_eq_true, not_and]
    exact fun h' => absurd h' hc

theorem life_some {r : Nat → Raw α E} {k : Nat} {x : Except E α} (h : life r k = some x) :
    (∀ j < k, ∃ a, r j = .sample a) ∧ ((∃ a, r k = .sample a ∧ x = .ok a) ∨ ∃ e, r k = .raise e ∧ x = .error e) := by
  unfold life at h
  split at h
  · next hc =>
    refine ⟨fun j hj => ?_, ?_⟩
    · have := List.all_eq_true.1 hc j (List.mem_range.2 hj)
      cases e : r j with
      | sample a => exact ⟨a, rfl⟩
      | stop => rw [e] at this; cases this
      | raise a => rw [e] at this; cases this
    · cases e : r k with
      | sample a => rw [e] at h; cases h; exact .inl ⟨a, rfl, rfl⟩
      | stop => rw [e] at h; cases h
      | raise a => rw [e] at h; cases h; exact .inr ⟨a, rfl, rfl⟩
  · cases h

theorem life_of {r : Nat → Raw α E} {k : Nat} (h : ∀ j < k, ∃ a, r j = .sample a) : life r k = (r k).answer := by
  unfold life
  rw [if_pos]
  rw [List.all_eq_true]
  intro j hj
  obtain ⟨a, ha⟩ := h j (List.mem_range.1 hj)
  rw [ha]; rfl

theorem life_dead {r : Nat → Raw α E} {k m : Nat} {e : E} (h : r k = .raise e) (hm : k < m) : life r m = none := by
  unfold life
  rw [if_neg]
  intro hc
  have := List.all_eq_true.1 hc k (List.mem_range.2 hm)
  rw [h] at this
  cases this

/-- The first answers: samples, perhaps followed by an exception -/
theorem life_list {r : Nat → Raw α E} (w m : Nat) (h : ∀ i < m, life r i ≠ none) :
    ∃ as : List α, (∀ i (hi : i < as.length), r i = .sample as[i]) ∧
      (((List.range m).filterMap fun i => (life r i).map (w, ·)) = as.map (fun a => (w, .ok a)) ∨
       ∃ e, r as.length = .raise e ∧ ((List.range m).filterMap fun i => (life r i).map (w, ·)) = as.map (fun a => (w, .ok a)) ++ [(w, .error e)]) ∧
      ((List.range m).filterMap fun i => (life r i).map (w, ·)).length = m := by
  induction m with
  | zero => exact ⟨[], (by intro i hi; simp at hi), .inl rfl, rfl⟩
  | succ m ih =>
    obtain ⟨as, h1, h2, h3⟩ := ih fun i hi => h i (by omega)
    cases hx : life r m with
    | none => exact absurd hx (h m (by omega))
    | some x =>
      obtain ⟨hs, hk⟩ := life_some hx
      rw [List.range_succ, List.filterMap_append]
      have he : ([m].filterMap fun i => (life r i).map (w, ·)) = [(w, x)] := by simp [hx]
      rw [he]
      rcases h2 with h2 | ⟨e, h4, h5⟩
      · have hl : as.length = m := by rw [h2] at h3; simpa using h3
        rcases hk with ⟨a, ha, rfl⟩ | ⟨e, ha, rfl⟩
        · refine ⟨as ++ [a], ?_, .inl (by rw [h2]; simp), by rw [List.length_append, h3]; rfl⟩
          intro i hi
          by_cases hi' : i < as.length
          · rw [List.getElem_append_left hi']; exact h1 i hi'
          · have : i = as.length := by simp at hi; omega
            subst this
            rw [List.getElem_append_right (Nat.le_refl _)]
            simp [← ha, hl]
        · exact ⟨as, h1, .inr ⟨e, by rw [hl]; exact ha, by rw [h2]⟩, by rw [List.length_append, h3]; rfl⟩
      · exfalso
        have hl : as.length < m := by rw [h5] at h3; simp at h3; omega
        obtain ⟨a, ha⟩ := hs _ hl
        rw [h4] at ha
        cases ha

/-! ## C116 -/

/-- **C116, each exception in its place**: however the processes are scheduled, and however often the user has gone on after an exception, the results of each worker so far are the first samples of
its dataset, perhaps followed by one exception: the one its dataset raised after these samples. -/
theorem C116_results {s : Sys (Except E α)} (h : Fails n raw s) {w : Nat} (hw : w < n) :
    ∃ as : List α, (∀ i (hi : i < as.length), raw w i = .sample as[i]) ∧
      (ofWorker w s.hist = as.map (fun a => (w, .ok a)) ∨
       ∃ e, raw w as.length = .raise e ∧ ofWorker w s.hist = as.map (fun a => (w, .ok a)) ++ [(w, .error e)]) := by
  obtain ⟨h1, h2⟩ := C35_worker_stream life_sticky h hw
  obtain ⟨as, h3, h4, _⟩ := life_list (r := raw w) w _ h2
  refine ⟨as, h3, ?_⟩
  rw [← h1] at h4
  exact h4

/-- **C116, no exception is lost**: if the dataset of worker `w` raises after `k` samples, then it has been raised out of `next` before any worker has delivered its sample number `k + 1` (from 0) -/
theorem C116_reported {s : Sys (Except E α)} (h : Fails n raw s) {w v k : Nat} {e : E} (hw : w < n) (hv : v < n) (hk : ∀ j < k, ∃ a, raw w j = .sample a) (he : raw w k = .raise e)
    (hd : k + 1 < (ofWorker v s.hist).length) : (w, .error e) ∈ s.hist := by
  have hn : 0 < n := by omega
  obtain ⟨got, low, hg⟩ := h.good hn life_sticky
  have hist : s.hist = upto n (fun w => life (raw w)) low := hg.inv.hist
  obtain ⟨c, h1, h2⟩ := ofWorker_upto (out := fun w => life (raw w)) hv low
  obtain ⟨d, h3, h4⟩ := ofWorker_upto (out := fun w => life (raw w)) hw low
  have hc : k + 1 < c := by
    rw [hist, h2] at hd
    have := List.length_filterMap_le (fun i => (life (raw v) i).map (v, ·)) (List.range c)
    rw [List.length_range] at this
    omega
  have hlow := (h1 (k + 1)).1 hc
  have hkd : k < d := by
    rw [h3]
    have : (k + 1) * n = k * n + n := Nat.succ_mul k n
    omega
  have : (w, .error e) ∈ ofWorker w s.hist := by
    rw [hist, h4]
    rw [List.mem_filterMap]
    refine ⟨k, List.mem_range.2 hkd, ?_⟩
    rw [life_of hk, he]
    rfl
  exact (List.mem_filter.1 this).1

/-- **C116, at the end of the loop** every worker has delivered all samples up to its end or its exception, and every exception has been raised. -/
theorem C116_end {s : Sys (Except E α)} (h : Fails n raw s) (hf : s.phase = .finished) {w : Nat} (hw : w < n) :
    ∃ as : List α, (∀ i (hi : i < as.length), raw w i = .sample as[i]) ∧
      ((raw w as.length = .stop ∧ ofWorker w s.hist = as.map (fun a => (w, .ok a))) ∨
       ∃ e, raw w as.length = .raise e ∧ ofWorker w s.hist = as.map (fun a => (w, .ok a)) ++ [(w, .error e)]) := by
  have hn : 0 < n := by omega
  obtain ⟨as, h1, h2⟩ := C116_results h hw
  refine ⟨as, h1, ?_⟩
  rcases h2 with h2 | h2
  · refine .inl ⟨?_, h2⟩
    have hs : ∀ j < as.length, ∃ a, raw w j = .sample a := fun j hj => ⟨_, h1 j hj⟩
    obtain ⟨K, hK, hh⟩ := C35_complete hn life_sticky h hf
    by_cases ho : life (raw w) as.length = none
    · rw [life_of hs] at ho
      cases e : raw w as.length with
      | stop => rfl
      | sample a => rw [e] at ho; cases ho
      | raise a => rw [e] at ho; cases ho
    · exfalso
      have hlt : as.length < K := by
        rcases Nat.lt_or_ge as.length K with h | h
        · exact h
        · exact absurd (life_sticky.le (hK w hw) h) ho
      have hlen : (ofWorker w s.hist).length = as.length := by rw [h2]; simp
      obtain ⟨c, h3, h4⟩ := ofWorker_upto (out := fun w => life (raw w)) hw (K * n)
      rw [upto_rounds, ← hh] at h4
      have hc : as.length < c := by
        rw [h3]
        have : (as.length + 1) * n ≤ K * n := Nat.mul_le_mul_right _ hlt
        have : (as.length + 1) * n = as.length * n + n := Nat.succ_mul _ n
        omega
      have hge : as.length + 1 ≤ (ofWorker w s.hist).length := by
        rw [h4]
        have hsub : List.Sublist (List.range (as.length + 1)) (List.range c) := by
          exact List.range_sublist.2 hc
        have h5 := (hsub.filterMap fun i => (life (raw w) i).map (w, ·)).length_le
        have h6 : ((List.range (as.length + 1)).filterMap fun i => (life (raw w) i).map (w, ·)).length = as.length + 1 := by
          obtain ⟨_, _, _, h⟩ := life_list (r := raw w) w (as.length + 1) (by
            intro i hi hnone
            exact ho (life_sticky.le hnone (by omega)))
          exact h
        omega
      omega
  · exact .inr h2

/-- **C116, `next` always returns**: there is no endless execution in which `next` neither gives a sample nor raises. -/
theorem C116_returns (hn : 0 < n) (f : Nat → Sys (Except E α)) (h0 : Fails n raw (f 0)) (hst : ∀ k, Step n (fun w => life (raw w)) (f k) (f (k + 1))) : ∃ k, (f k).phase ≠ .busy :=
  C35_next_returns hn life_sticky f h0 hst

/-! ### What is saved after an exception -/

theorem after_snoc (l : List (Except E (Nat × Nat × α))) (x : Except E (Nat × Nat × α)) : Books.after n (l ++ [x]) = (Books.after n l).note n x := by
  simp [Books.after, List.foldl_append]

theorem snoc_induction {β : Type} {p : List β → Prop} (l : List β) (h0 : p []) (h1 : ∀ l x, p l → p (l ++ [x])) : p l := by
  rw [← List.reverse_reverse l]
  induction l.reverse with
  | nil => exact h0
  | cons a l ih => rw [List.reverse_cons]; exact h1 _ _ ih

theorem ofWorker_append' {β : Type} (w : Nat) (l l' : List (Nat × β)) : ofWorker w (l ++ l') = ofWorker w l ++ ofWorker w l' := by
  simp [ofWorker, List.filter_append]

theorem books_counter (w : Nat) (l : List (Nat × Except E (Nat × Nat × α))) (hl : ∀ x ∈ l, ∀ a, x.2 = .ok a → a.1 = x.1) :
    (Books.after n (l.map (·.2))).counter w = (Books.after n ((ofWorker w l).map (·.2))).counter w := by
  revert hl
  refine snoc_induction (p := fun l => (∀ x ∈ l, ∀ a, x.2 = .ok a → a.1 = x.1) → (Books.after n (l.map (·.2))).counter w = (Books.after n ((ofWorker w l).map (·.2))).counter w) l (fun _ => rfl) ?_
  intro l x ih hl
  have ih := ih fun y hy => hl y (List.mem_append_left _ hy)
  have hx := hl x (List.mem_append_right _ (List.mem_singleton.2 rfl))
  rw [List.map_append, List.map_cons, List.map_nil, after_snoc, ofWorker_append']
  obtain ⟨v, y⟩ := x
  cases y with
  | error e =>
    have : (ofWorker w [(v, (Except.error e : Except E (Nat × Nat × α)))]).map (·.2) = [] ∨ (ofWorker w [(v, (Except.error e : Except E (Nat × Nat × α)))]).map (·.2) = [.error e] := by
      by_cases hv : v = w
      · right; simp [ofWorker, hv]
      · left; simp [ofWorker, hv]
    rw [List.map_append]
    rcases this with h | h <;> rw [h]
    · rw [List.append_nil]; exact ih
    · rw [after_snoc]; exact ih
  | ok a =>
    obtain ⟨u, i, z⟩ := a
    have hu : u = v := hx _ rfl
    subst hu
    rw [List.map_append]
    by_cases hv : u = w
    · subst hv
      have : (ofWorker u [(u, (Except.ok (u, i, z) : Except E (Nat × Nat × α)))]).map (·.2) = [.ok (u, i, z)] := by simp [ofWorker]
      rw [this, after_snoc]
      simp [Books.note, fset]
    · have : (ofWorker w [(u, (Except.ok (u, i, z) : Except E (Nat × Nat × α)))]).map (·.2) = [] := by simp [ofWorker, hv]
      rw [this, List.append_nil]
      simp only [Books.note, fset]
      rw [if_neg (fun h => hv h.symm)]
      exact ih

/-- The samples among the results -/
def samplesIn (l : List (Nat × Except E α)) : List (Nat × α) := l.filterMap fun x => match x.2 with | .ok a => some (x.1, a) | .error _ => none

theorem samplesIn_append (l l' : List (Nat × Except E α)) : samplesIn (l ++ l') = samplesIn l ++ samplesIn l' := by
  simp [samplesIn, List.filterMap_append]

/-- **C116, saved states**: worker `w` gives its samples with the numbers `base w`, `base w + 1`, ... Whatever exceptions have been raised, the loader's counters are those of the samples delivered: the number of the last sample
of each worker that has delivered one, the number of samples, and the worker behind the one of the last sample. So a state saved after an exception is one saved after the last sample before it. -/
theorem C116_books {raw : Nat → Nat → Raw (Nat × Nat × α) E} {s : Sys (Except E (Nat × Nat × α))} (base : Nat → Nat) (hraw : ∀ w i a, raw w i = .sample a → a.1 = w ∧ a.2.1 = base w + i)
    (h : Fails n raw s) :
    (∀ w < n, 0 < (ofWorker w (samplesIn s.hist)).length →
      (Books.after n (s.hist.map (·.2))).counter w = base w + (ofWorker w (samplesIn s.hist)).length - 1) ∧
    (Books.after n (s.hist.map (·.2))).idx = (samplesIn s.hist).length ∧
    (∀ x, (samplesIn s.hist).getLast? = some x → (Books.after n (s.hist.map (·.2))).next = (x.1 + 1) % n) := by
  by_cases hn : n = 0
  · subst hn
    have hh : s.hist = [] := by
      have hr : ∀ s : Sys (Except E (Nat × Nat × α)), Fails 0 raw s → s.pending = [] ∧ s.hist = [] := by
        intro s h
        induction h with
        | start => exact ⟨rfl, rfl⟩
        | step _ hs ih =>
          obtain ⟨h1, h2⟩ := ih
          cases hs with
          | work hw _ _ => omega
          | discard hw _ _ => omega
          | call _ => exact ⟨h1, h2⟩
          | drop _ hp _ => rw [h1] at hp; cases hp
          | finish _ _ => exact ⟨h1, h2⟩
          | «have» _ hp => rw [h1] at hp; cases hp
          | recvStop _ hp _ _ => rw [h1] at hp; cases hp
          | recvNow _ hp _ _ => rw [h1] at hp; cases hp
          | recvLater _ hp _ _ _ => rw [h1] at hp; cases hp
      exact (hr s h).2
    rw [hh]
    exact ⟨fun w hw => by omega, rfl, fun x hx => by cases hx⟩
  have hn : 0 < n := by omega
  obtain ⟨K, hK⟩ := C35_round_robin hn life_sticky h
  have hl : ∀ x ∈ s.hist, ∀ a, x.2 = .ok a → a.1 = x.1 := by
    intro x hx a ha
    have := hK.subset hx
    simp only [rounds, round, List.mem_flatMap, List.mem_filterMap, List.mem_range] at this
    obtain ⟨k, _, w, _, hw⟩ := this
    cases ho : life (raw w) k with
    | none => rw [ho] at hw; cases hw
    | some y =>
      rw [ho] at hw
      obtain rfl := Option.some.inj hw
      rcases (life_some ho).2 with ⟨b, hb, rfl⟩ | ⟨e, _, rfl⟩
      · cases ha
        exact (hraw _ _ _ hb).1
      · cases ha
  refine ⟨?_, ?_, ?_⟩
  · intro w hw hp
    rw [books_counter w _ hl]
    obtain ⟨as, h1, h2⟩ := C116_results h hw
    have hcomm : ∀ l : List (Nat × Except E (Nat × Nat × α)), ofWorker w (samplesIn l) = samplesIn (ofWorker w l) := by
      intro l
      induction l with
      | nil => rfl
      | cons x l ih =>
        obtain ⟨v, y⟩ := x
        have e1 : samplesIn ((v, y) :: l) = samplesIn [(v, y)] ++ samplesIn l := samplesIn_append [_] l
        have e2 : ofWorker w ((v, y) :: l) = ofWorker w [(v, y)] ++ ofWorker w l := ofWorker_append' w [_] l
        rw [e1, e2, ofWorker_append', samplesIn_append, ih]
        congr 1
        by_cases hv : v = w <;> cases y <;> simp [ofWorker, samplesIn, hv]
    rw [hcomm] at hp ⊢
    have hok : samplesIn (as.map fun a => (w, (Except.ok a : Except E (Nat × Nat × α)))) = as.map fun a => (w, a) := by
      simp [samplesIn, List.filterMap_map, Function.comp_def]
    have hcount : ∀ m (hm : m ≤ as.length), 0 < m → (Books.after n ((as.take m).map fun a => (Except.ok a : Except E (Nat × Nat × α)))).counter w = base w + m - 1 := by
      intro m hm hpos
      obtain ⟨m, rfl⟩ : ∃ k, m = k + 1 := ⟨m - 1, by omega⟩
      rw [List.take_succ_eq_append_getElem (by omega), List.map_append, List.map_cons, List.map_nil, after_snoc]
      have := hraw w m _ (h1 m (by omega))
      generalize hq : as[m] = q at this ⊢
      obtain ⟨u, i, z⟩ := q
      obtain ⟨hu, hi⟩ := this
      simp only at hu hi
      simp [Books.note, fset, hu, hi]
    have hall := hcount as.length (Nat.le_refl _)
    rw [List.take_length] at hall
    rcases h2 with h2 | ⟨e, _, h2⟩
    · rw [h2, hok] at hp
      rw [h2, hok]
      rw [List.length_map] at hp ⊢
      rw [← hall hp]
      simp [List.map_map, Function.comp_def]
    · have e1 : samplesIn [(w, (Except.error e : Except E (Nat × Nat × α)))] = [] := rfl
      rw [h2, samplesIn_append, e1, List.append_nil, hok] at hp
      rw [h2, samplesIn_append, e1, List.append_nil, hok]
      rw [List.length_map] at hp ⊢
      rw [← hall hp, List.map_append, List.map_cons, List.map_nil, after_snoc]
      simp [List.map_map, Function.comp_def, Books.note]
  · generalize s.hist = l
    refine snoc_induction (p := fun l => (Books.after n (l.map (·.2))).idx = (samplesIn l).length) l rfl ?_
    intro l x ih
    rw [List.map_append, List.map_cons, List.map_nil, after_snoc, samplesIn_append, List.length_append]
    obtain ⟨v, y⟩ := x
    cases y with
    | error e => exact ih
    | ok a => obtain ⟨u, i, z⟩ := a; simp only [Books.note, ih]; rfl
  · generalize s.hist = l at hl
    revert hl
    refine snoc_induction (p := fun l => (∀ x ∈ l, ∀ a, x.2 = .ok a → a.1 = x.1) → ∀ x, (samplesIn l).getLast? = some x → (Books.after n (l.map (·.2))).next = (x.1 + 1) % n) l (fun _ x hx => by cases hx) ?_
    intro l x ih hl y hy
    have ih := ih (fun y hy => hl y (List.mem_append_left _ hy)) y
    have hx := hl x (List.mem_append_right _ (List.mem_singleton.2 rfl))
    rw [List.map_append, List.map_cons, List.map_nil, after_snoc]
    rw [samplesIn_append] at hy
    obtain ⟨v, z⟩ := x
    cases z with
    | error e =>
      have e1 : samplesIn [(v, (Except.error e : Except E (Nat × Nat × α)))] = [] := rfl
      rw [e1, List.append_nil] at hy
      exact ih hy
    | ok a =>
      obtain ⟨u, i, z⟩ := a
      obtain rfl : u = v := hx _ rfl
      have e1 : samplesIn [(u, (Except.ok (u, i, z) : Except E (Nat × Nat × α)))] = [(u, (u, i, z))] := rfl
      rw [e1, List.getLast?_append, List.getLast?_singleton] at hy
      obtain rfl := Option.some.inj hy
      simp only [Books.note]
      rw [Nat.max_eq_left hn]

/-! ### Going on -/

/-- **C116 in full, for endless datasets** (training): after exceptions the user can go on and gets what the workers' datasets have, in turns, as without worker processes: an exception of one worker only costs the sample that
failed. -/
def C116_statement : Prop :=
  ∀ (n : Nat) (gen : Nat → Nat → Nat → Raw Nat Nat), 0 < n → (∀ w r k, gen w r k ≠ .stop) → ∀ s, Fails n (fun w => gen w 0) s →
    ∃ K, s.hist <+: rounds n (fun w j => (goOn (gen w) j).answer) K

/-- **C116 is false of the code** when going on: the worker whose dataset raised after `k` samples does not deliver anything any more, however long the user goes on; and as long as another worker has samples, the
iteration does not come to its end (after which all workers would begin again). In training its share of the data is lost without a word. -/
theorem C116_violated_lost {s : Sys (Except E α)} (h : Fails n raw s) {w v k : Nat} {e : E} (hw : w < n) (hv : v < n) (he : raw w k = .raise e) (hend : ∀ i, ∃ a, raw v i = .sample a) :
    (ofWorker w s.hist).length ≤ k + 1 ∧ s.phase ≠ .finished := by
  constructor
  · obtain ⟨_, h2⟩ := C35_worker_stream life_sticky h hw
    rcases Nat.lt_or_ge (k + 1) (ofWorker w s.hist).length with hlt | hle
    · exact absurd (life_dead he (Nat.lt_succ_self k)) (h2 (k + 1) hlt)
    · exact hle
  · intro hf
    obtain ⟨as, _, h2⟩ := C116_end h hf hv
    obtain ⟨a, ha⟩ := hend as.length
    rcases h2 with ⟨h2, _⟩ | ⟨e, h2, _⟩ <;> rw [ha] at h2 <;> cases h2

/-- Two workers. The dataset of worker 0 raises after its first sample, and has more samples when it is iterated over again -/
def failGen (w r k : Nat) : Raw Nat Nat := if w = 0 ∧ r = 0 ∧ k = 1 then .raise 7 else .sample (100 * w + 10 * r + k)

/-- The user goes on after the exception and gets two samples of worker 1 in a row -/
def failRun : Sys (Except Nat Nat) := ticks 2 (fun w => life (failGen w 0)) 26

def show' (l : List (Nat × Except Nat Nat)) : List (Nat × Option Nat) := l.map fun x => (x.1, match x.2 with | .ok a => some a | .error _ => none)

theorem failRun_hist : show' failRun.hist = [(0, some 0), (1, some 100), (0, none), (1, some 101), (1, some 102)] := by decide +kernel

theorem C116_violated : ¬ C116_statement := by
  intro h
  obtain ⟨K, l, hK⟩ := h 2 failGen (by decide) (by
    intro w r k
    unfold failGen
    split <;> simp) failRun (ticks_reach 26)
  have h1 : (show' (rounds 2 (fun w j => (goOn (failGen w) j).answer) 3)).take 5 = [(0, some 0), (1, some 100), (0, none), (1, some 101), (0, some 10)] := by decide +kernel
  have h2 : ∀ K, (show' (rounds 2 (fun w j => (goOn (failGen w) j).answer) (3 + K))).take 5 = [(0, some 0), (1, some 100), (0, none), (1, some 101), (0, some 10)] := by
    intro K
    rw [rounds, List.range_add, List.flatMap_append, show', List.map_append, List.take_append_of_le_length (by decide +kernel)]
    exact h1
  have hlen : 5 ≤ (rounds 2 (fun w j => (goOn (failGen w) j).answer) K).length := by
    rw [← hK, List.length_append]
    have : failRun.hist.length = 5 := by decide +kernel
    omega
  have hK3 : 3 ≤ K := by
    apply Classical.byContradiction
    intro hlt
    have : K = 0 ∨ K = 1 ∨ K = 2 := by omega
    rcases this with rfl | rfl | rfl <;> revert hlen <;> decide +kernel
  obtain ⟨m, rfl⟩ : ∃ m, K = 3 + m := ⟨K - 3, by omega⟩
  have h3 := h2 m
  rw [← hK, show', List.map_append, List.take_append_of_le_length (by decide +kernel)] at h3
  revert h3
  decide +kernel

/-! ### Cases -/

example : ∃ s, Fails 2 (fun w => failGen w 0) s ∧ (0, .error 7) ∈ s.hist :=
  ⟨failRun, ticks_reach 26, C116_reported (raw := fun w => failGen w 0) (w := 0) (v := 1) (k := 1) (ticks_reach 26) (by decide) (by decide)
    (fun j hj => ⟨j, by unfold failGen; rw [if_neg (by omega)]; simp⟩) rfl (by decide +kernel)⟩
example : (ofWorker 0 failRun.hist).length ≤ 2 :=
  (C116_violated_lost (raw := fun w => failGen w 0) (w := 0) (v := 1) (k := 1) (e := 7) (s := failRun) (ticks_reach 26) (by decide) (by decide) rfl
    (fun i => ⟨100 * 1 + 10 * 0 + i, by simp [failGen]⟩)).1

/-- A finite case: worker 0 raises after one sample, worker 1 has two samples; the samples come with worker and number -/
def failFinite (w i : Nat) : Raw (Nat × Nat × Nat) Nat :=
  if w = 0 ∧ i = 1 then .raise 7 else if i < 2 then .sample (w, i, 50 + i) else .stop

def failFiniteRun : Sys (Except Nat (Nat × Nat × Nat)) := ticks 2 (fun w => life (failFinite w)) 40

example : ∃ as : List (Nat × Nat × Nat), (∀ i (hi : i < as.length), failFinite 0 i = .sample as[i]) ∧
    ((failFinite 0 as.length = .stop ∧ ofWorker 0 failFiniteRun.hist = as.map (fun a => (0, .ok a))) ∨
      ∃ e, failFinite 0 as.length = .raise e ∧ ofWorker 0 failFiniteRun.hist = as.map (fun a => (0, .ok a)) ++ [(0, .error e)]) :=
  C116_end (raw := failFinite) (ticks_reach 40) (by decide +kernel) (by decide)

example : (Books.after 2 (failFiniteRun.hist.map (·.2))).counter 1 = 1 ∧ (Books.after 2 (failFiniteRun.hist.map (·.2))).idx = 3 := by
  obtain ⟨h1, h2, _⟩ := C116_books (raw := failFinite) (n := 2) (s := failFiniteRun) (fun _ => 0) (by
    intro w i a h
    unfold failFinite at h
    split at h
    · cases h
    · split at h
      · cases h; exact ⟨rfl, (Nat.zero_add i).symm⟩
      · cases h) (ticks_reach 40)
  exact ⟨(h1 1 (by decide) (by decide +kernel)).trans (by decide +kernel), h2.trans (by decide +kernel)⟩

end Verif.Loader
