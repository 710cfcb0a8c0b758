import Verif.Debug.Heat

/-!
# Property C99: the points of the heatmap
-/

namespace Verif.Debug

variable {α : Type} [AddCommMonoid α] {K : Type} [DecidableEq K]

/-! ## Specification -/

/-- The log is in order: the numbers of the batches of the loader do not decrease, and none is skipped. -/
def Ordered (id skip : Nat) (log : List (Entry K)) : Prop :=
  (log.filter fun e => e.id = id).Pairwise (fun a b => a.idx ≤ b.idx) ∧ ∀ e ∈ log, e.id = id → skip ≤ e.idx

/-- The keys the loader delivered as batch number `c`, according to the log -/
def delivered (id c : Nat) (log : List (Entry K)) : List K := (log.filter fun e => e.id = id ∧ e.idx = c).flatMap fun e => e.keys.getD []

/-- All keys with step (after the skipped ones) and log, step by step -/
def history (id skip n : Nat) (logs : List (List (Entry K))) : List (K × Nat × Nat) :=
  (List.range n).flatMap fun c => logs.zipIdx.flatMap fun x => (delivered id (c + skip) x.1).map fun k => (k, c, x.2)

/-- The different keys in the order of their first occurrence -/
def firsts : List K → List K
  | [] => []
  | k :: l => k :: (firsts l).filter (· ≠ k)

/-! ## Numbering -/

def ext (d : List K) : List (K × Nat × Nat) → List K
  | [] => d
  | (k, _, _) :: l => ext (keyId d k).2 l

theorem ext_eq : ∀ (l : List (K × Nat × Nat)) (d : List K), ext d l = d ++ (firsts (l.map (·.1))).filter (· ∉ d)
  | [], d => by simp [ext, firsts]
  | (k, t, s) :: l, d => by
    unfold ext
    rw [ext_eq l]
    unfold keyId
    rw [List.map_cons]
    show _ = d ++ (k :: (firsts (l.map (·.1))).filter (· ≠ k)).filter (· ∉ d)
    split
    · rename_i hk
      rw [List.filter_cons_of_neg (by simpa using hk), List.filter_filter]
      congr 1
      refine List.filter_congr fun x _ => ?_
      by_cases hx : x ∈ d
      · simp [hx]
      · have : x ≠ k := fun e => hx (e ▸ hk)
        simp [hx, this]
    · rename_i hk
      rw [List.filter_cons_of_pos (by simpa using hk), List.filter_filter, List.append_assoc]
      congr 1
      show [k] ++ _ = k :: _
      rw [List.singleton_append]
      congr 1
      refine List.filter_congr fun x _ => ?_
      by_cases hx : x ∈ d <;> by_cases hx' : x = k <;> simp [hx, hx']

theorem number_eq : ∀ (l : List (K × Nat × Nat)) (d : List K), number d l = l.map fun x => ((ext d l).idxOf x.1, x.2.1, x.2.2)
  | [], d => rfl
  | (k, t, s) :: l, d => by
    unfold number ext
    rw [number_eq l, List.map_cons]
    congr 1
    have h : k ∈ (keyId d k).2 ∧ (keyId d k).1 = (keyId d k).2.idxOf k := by
      unfold keyId
      split
      · rename_i h; exact ⟨h, rfl⟩
      · rename_i h
        refine ⟨by simp, ?_⟩
        show d.length = (d ++ [k]).idxOf k
        rw [List.idxOf_append_of_notMem h]
        simp
    show ((keyId d k).1, t, s) = _
    rw [h.2]
    dsimp only
    rw [ext_eq l (keyId d k).2, List.idxOf_append_of_mem h.1]

/-- **C99, numbering**: samples are numbered in the order of their first occurrence. -/
theorem number_firsts (l : List (K × Nat × Nat)) : number [] l = l.map fun x => ((firsts (l.map (·.1))).idxOf x.1, x.2.1, x.2.2) := by
  rw [number_eq, ext_eq]
  simp

theorem mem_firsts : ∀ (l : List K) (k : K), k ∈ firsts l ↔ k ∈ l
  | [], k => by simp [firsts]
  | a :: l, k => by
    unfold firsts
    by_cases h : k = a
    · simp [h]
    · simp [h, mem_firsts l k]

/-- **C99, numbering**: different samples have different numbers. -/
theorem C99_numbers (l : List K) {a b : K} (ha : a ∈ l) (h : (firsts l).idxOf a = (firsts l).idxOf b) : a = b :=
  (List.idxOf_inj ((mem_firsts l a).2 ha)).1 h

/-! ## Draining one log -/

theorem logEntries_cons (id c : Nat) (e : Entry K) (l : List (Entry K)) (h : e.id = id) : logEntries id c (e :: l) =
    if e.idx < c then [.fail]
    else List.replicate (e.idx - c) .next ++ ((match e.keys with | some ks => [.keys ks] | none => []) ++ logEntries id e.idx l) := by
  show (if e.id = id then _ else _) = _
  rw [if_pos h]
  rfl

theorem logEntries_filter (id : Nat) : ∀ (l : List (Entry K)) (c : Nat), logEntries id c l = logEntries id c (l.filter fun e => e.id = id)
  | [], c => rfl
  | e :: l, c => by
    by_cases h : e.id = id
    · rw [List.filter_cons_of_pos (by simpa using h)]
      rw [logEntries_cons _ _ _ _ h, logEntries_cons _ _ _ _ h, logEntries_filter id l]
    · rw [List.filter_cons_of_neg (by simpa using h), ← logEntries_filter id l]
      show (if e.id = id then _ else _) = _
      rw [if_neg h]

/-- All entries are of the loader, in order, from `c` on. -/
structure Good (id c : Nat) (l : List (Entry K)) : Prop where
  id : ∀ e ∈ l, e.id = id
  sorted : l.Pairwise (fun a b => a.idx ≤ b.idx)
  from_ : ∀ e ∈ l, c ≤ e.idx

def keysAt (c : Nat) (l : List (Entry K)) : List K := (l.filter fun e => e.idx = c).flatMap fun e => e.keys.getD []

def later (c : Nat) (l : List (Entry K)) : List (Entry K) := l.filter fun e => c < e.idx

theorem good_later {id c : Nat} {l : List (Entry K)} (h : Good id c l) : Good id (c + 1) (later c l) :=
  ⟨fun e he => h.id e (List.mem_filter.1 he).1, h.sorted.filter _, fun e he => by
    have := (List.mem_filter.1 he).2
    simp only [decide_eq_true_eq] at this
    omega⟩

theorem drain_spec {id c : Nat} : ∀ {l : List (Entry K)}, Good id c l →
    drain (logEntries id c l) = some (keysAt c l, if later c l = [] then none else some (logEntries id (c + 1) (later c l)))
  | [], h => by simp [logEntries, drain, keysAt, later]
  | e :: l, h => by
    have hl : Good id c l := ⟨fun x hx => h.id x (List.mem_cons_of_mem _ hx), (List.pairwise_cons.1 h.sorted).2, fun x hx => h.from_ x (List.mem_cons_of_mem _ hx)⟩
    have he := h.from_ e (List.mem_cons_self ..)
    rw [logEntries_cons _ _ _ _ (h.id e (List.mem_cons_self ..)), if_neg (by omega)]
    by_cases hc : e.idx = c
    · have ih := drain_spec hl
      rw [hc, Nat.sub_self, List.replicate_zero, List.nil_append]
      have h2 : later c (e :: l) = later c l := List.filter_cons_of_neg (by simp [hc])
      have h1 : keysAt c (e :: l) = e.keys.getD [] ++ keysAt c l := by
        unfold keysAt
        rw [List.filter_cons_of_pos (by simp [hc]), List.flatMap_cons]
      rw [h1, h2]
      cases hk : e.keys with
      | none => simpa using ih
      | some ks =>
        show (drain (logEntries id c l)).map _ = _
        rw [ih]
        rfl
    · obtain ⟨d, hd⟩ : ∃ d, e.idx - c = d + 1 := ⟨e.idx - c - 1, by omega⟩
      rw [hd, List.replicate_succ]
      have hall : ∀ x ∈ e :: l, c < x.idx := fun x hx => by
        rcases List.mem_cons.1 hx with rfl | hx
        · omega
        · have := (List.pairwise_cons.1 h.sorted).1 x hx; omega
      have h2 : later c (e :: l) = e :: l := List.filter_eq_self.2 fun x hx => by simpa using hall x hx
      have h1 : keysAt c (e :: l) = [] := by
        unfold keysAt
        rw [List.filter_eq_nil_iff.2 fun x hx => by have := hall x hx; simp; omega]
        rfl
      rw [h1, h2, if_neg (by simp)]
      show some ([], some _) = _
      congr 3
      rw [logEntries_cons _ _ _ _ (h.id e (List.mem_cons_self ..)), if_neg (by omega)]
      congr 1
      have : e.idx - (c + 1) = d := by omega
      rw [this]

/-! ## All logs -/

def toks (id c : Nat) (P : List (Nat × List (Entry K))) : List (Nat × List (Tok K)) := P.map fun x => (x.1, logEntries id c x.2)

def rest (c : Nat) (P : List (Nat × List (Entry K))) : List (Nat × List (Entry K)) :=
  (P.filter fun x => !(later c x.2).isEmpty).map fun x => (x.1, later c x.2)

theorem stepLogs_spec {id c : Nat} : ∀ {P : List (Nat × List (Entry K))}, (∀ x ∈ P, Good id c x.2) →
    stepLogs (toks id c P) = some (P.flatMap fun x => (keysAt c x.2).map fun k => (k, x.1), toks id (c + 1) (rest c P))
  | [], _ => rfl
  | x :: P, h => by
    have hx := drain_spec (h x (List.mem_cons_self ..))
    have ih := stepLogs_spec (P := P) fun y hy => h y (List.mem_cons_of_mem _ hy)
    show (drain (logEntries id c x.2)).bind _ = _
    rw [hx, Option.bind_some]
    show (stepLogs (toks id c P)).map _ = _
    rw [ih, Option.map_some, List.flatMap_cons]
    congr 2
    by_cases hl : later c x.2 = []
    · rw [if_pos hl]
      unfold rest
      rw [List.filter_cons_of_neg (by simp [hl])]
    · rw [if_neg hl]
      unfold rest
      rw [List.filter_cons_of_pos (by simp [hl])]
      rfl

theorem drain_length : ∀ {l : List (Tok K)} {ks : List K} {r : List (Tok K)}, drain l = some (ks, some r) → r.length < l.length
  | [], ks, r, h => by cases h
  | .next :: l, ks, r, h => by cases h; simp
  | .keys a :: l, ks, r, h => by
    obtain ⟨⟨x, y⟩, h1, h2⟩ := Option.map_eq_some_iff.1 h
    cases h2
    have := drain_length h1
    simp; omega
  | .fail :: l, ks, r, h => by cases h

theorem stepLogs_enough : ∀ {its : List (Nat × List (Tok K))} {r}, stepLogs its = some r → enough r.2 + its.length ≤ enough its
  | [], r, h => by cases h; simp [enough]
  | (src, l) :: its, r, h => by
    unfold stepLogs at h
    obtain ⟨⟨ks, o⟩, h1, h⟩ := Option.bind_eq_some_iff.1 h
    obtain ⟨r', h2, rfl⟩ := Option.map_eq_some_iff.1 h
    have ih := stepLogs_enough h2
    have he : enough ((src, l) :: its) = l.length + 1 + enough its := by simp [enough]
    rw [he, List.length_cons]
    cases o with
    | none => show enough r'.2 + _ ≤ _; omega
    | some l' =>
      have := drain_length h1
      show enough ((src, l') :: r'.2) + _ ≤ _
      have : enough ((src, l') :: r'.2) = l'.length + 1 + enough r'.2 := by simp [enough]
      omega

def keyedFrom (skip count n : Nat) (P : List (Nat × List (Entry K))) : List (K × Nat × Nat) :=
  (List.range n).flatMap fun r => P.flatMap fun x => (keysAt (count + r + skip) x.2).map fun k => (k, count + r, x.1)

theorem keysAt_later {c c' : Nat} (h : c < c') (l : List (Entry K)) : keysAt c' (later c l) = keysAt c' l := by
  unfold keysAt later
  rw [List.filter_filter]
  congr 1
  refine List.filter_congr fun e _ => ?_
  by_cases he : e.idx = c' <;> simp [he, h]

theorem rest_flatMap {β : Type} {c c' : Nat} (h : c < c') (f : Nat → List K → List β) (hf : ∀ n, f n [] = []) (P : List (Nat × List (Entry K))) :
    ((rest c P).flatMap fun x => f x.1 (keysAt c' x.2)) = P.flatMap fun x => f x.1 (keysAt c' x.2) := by
  induction P with
  | nil => rfl
  | cons x P ih =>
    unfold rest at ih ⊢
    rw [List.flatMap_cons]
    by_cases hl : later c x.2 = []
    · rw [List.filter_cons_of_neg (by simp [hl]), ih]
      have : keysAt c' x.2 = [] := by rw [← keysAt_later h, hl]; rfl
      rw [this, hf, List.nil_append]
    · rw [List.filter_cons_of_pos (by simp [hl]), List.map_cons, List.flatMap_cons, ih, keysAt_later h]

theorem keyedFrom_succ (skip count n : Nat) (P : List (Nat × List (Entry K))) :
    keyedFrom skip count (n + 1) P =
      (P.flatMap fun x => (keysAt (count + skip) x.2).map fun k => (k, count, x.1)) ++ keyedFrom skip (count + 1) n (rest (count + skip) P) := by
  unfold keyedFrom
  rw [List.range_succ_eq_map, List.flatMap_cons, List.flatMap_map]
  congr 1
  refine congrArg List.flatten (List.map_congr_left fun r _ => ?_)
  have e : count + r.succ = count + 1 + r := by omega
  rw [e]
  exact (rest_flatMap (c := count + skip) (c' := count + 1 + r + skip) (by omega) (fun src ks => ks.map fun k => (k, count + 1 + r, src)) (fun _ => rfl) P).symm

theorem allSteps_spec {id skip : Nat} : ∀ (n count : Nat) (P : List (Nat × List (Entry K))), (∀ x ∈ P, Good id (count + skip) x.2) →
    enough (toks id (count + skip) P) ≤ n →
    ∃ m, allSteps n count (toks id (count + skip) P) = some (keyedFrom skip count m P, count + m) ∧ (P ≠ [] → 0 < m) ∧
      (∀ x ∈ P, ∀ e ∈ x.2, e.idx < count + m + skip) ∧ (m ≤ 1 ∨ ∃ x ∈ P, ∃ e ∈ x.2, e.idx + 1 = count + m + skip)
  | n, count, [], _, _ => ⟨0, by unfold allSteps toks; simp [keyedFrom], by simp, by simp, Or.inl (by omega)⟩
  | 0, count, x :: P, _, h => by simp [enough, toks] at h
  | n + 1, count, x :: P, hg, h => by
    have hs := stepLogs_spec hg
    have he := stepLogs_enough hs
    have hg' : ∀ y ∈ rest (count + skip) (x :: P), Good id (count + 1 + skip) y.2 := fun y hy => by
      obtain ⟨z, hz, rfl⟩ := List.mem_map.1 hy
      have := good_later (hg z (List.mem_filter.1 hz).1)
      rw [show count + 1 + skip = count + skip + 1 by omega]
      exact this
    have hc : count + skip + 1 = count + 1 + skip := by omega
    rw [hc] at hs he
    obtain ⟨m, h1, h2, h3, h4⟩ := allSteps_spec n (count + 1) (rest (count + skip) (x :: P)) hg' (by
      have : (toks id (count + skip) (x :: P)).length = P.length + 1 := by simp [toks]
      dsimp only at he
      omega)
    refine ⟨m + 1, ?_, fun _ => by omega, fun y hy e hye => ?_, ?_⟩
    · show (stepLogs (toks id (count + skip) (x :: P))).bind _ = _
      rw [hs, Option.bind_some]
      dsimp only
      rw [h1, Option.map_some, keyedFrom_succ, List.map_flatMap]
      simp only [List.map_map]
      congr 2
      omega
    · by_cases hle : e.idx ≤ count + skip
      · omega
      · have hmem : e ∈ later (count + skip) y.2 := List.mem_filter.2 ⟨hye, by simpa using hle⟩
        have hne : later (count + skip) y.2 ≠ [] := fun hh => by rw [hh] at hmem; cases hmem
        have := h3 (y.1, later (count + skip) y.2) (List.mem_map.2 ⟨y, List.mem_filter.2 ⟨hy, by simp [hne]⟩, rfl⟩) e hmem
        omega
    · have back : ∀ z ∈ rest (count + skip) (x :: P), ∀ e ∈ z.2, (count + skip < e.idx) ∧ ∃ y ∈ x :: P, e ∈ y.2 := fun z hz e hez => by
        obtain ⟨y, hy, rfl⟩ := List.mem_map.1 hz
        obtain ⟨h5, h6⟩ := List.mem_filter.1 hez
        exact ⟨by simpa using h6, y, (List.mem_filter.1 hy).1, h5⟩
      rcases h4 with h4 | ⟨z, hz, e, hez, h4⟩
      · by_cases hm : m = 0
        · left; omega
        · right
          have hm1 : m = 1 := by omega
          have hne : rest (count + skip) (x :: P) ≠ [] := fun hh => by
            rw [hh] at h1
            simp only [toks, List.map_nil] at h1
            unfold allSteps at h1
            simp only [Option.some.injEq, Prod.mk.injEq] at h1
            omega
          obtain ⟨z, hz⟩ := List.exists_mem_of_ne_nil _ hne
          have hz2 : z.2 ≠ [] := by
            obtain ⟨y, hy, rfl⟩ := List.mem_map.1 hz
            simpa using (List.mem_filter.1 hy).2
          obtain ⟨e, hez⟩ := List.exists_mem_of_ne_nil _ hz2
          obtain ⟨h5, y, hy, hey⟩ := back z hz e hez
          have := h3 z hz e hez
          exact ⟨y, hy, e, hey, by omega⟩
      · right
        obtain ⟨_, y, hy, hey⟩ := back z hz e hez
        exact ⟨y, hy, e, hey, by omega⟩

theorem batchPoints_spec {id skip : Nat} {logs : List (List (Entry K))} (h : ∀ log ∈ logs, Ordered id skip log) :
    ∃ n, batchPoints id skip logs = some (history id skip n logs, n) ∧ (∀ log ∈ logs, ∀ e ∈ log, e.id = id → e.idx < n + skip) ∧
      (n ≤ 1 ∨ ∃ log ∈ logs, ∃ e ∈ log, e.id = id ∧ e.idx + 1 = n + skip) := by
  let P : List (Nat × List (Entry K)) := logs.zipIdx.map fun x => (x.2, x.1.filter fun e => e.id = id)
  have hP : ∀ x ∈ P, ∃ log ∈ logs, x.2 = log.filter fun e => e.id = id := fun x hx => by
    obtain ⟨y, hy, rfl⟩ := List.mem_map.1 hx
    exact ⟨y.1, (List.mem_zipIdx' hy).2 ▸ List.getElem_mem _, rfl⟩
  have hg : ∀ x ∈ P, Good id (0 + skip) x.2 := fun x hx => by
    obtain ⟨log, hl, e⟩ := hP x hx
    rw [e]
    exact ⟨fun e he => by simpa using (List.mem_filter.1 he).2, (h log hl).1, fun e he => by
      have := (h log hl).2 e (List.mem_filter.1 he).1 (by simpa using (List.mem_filter.1 he).2)
      omega⟩
  have ht : (logs.zipIdx.map fun x => (x.2, logEntries id skip x.1)) = toks id (0 + skip) P := by
    unfold toks
    rw [List.map_map]
    refine List.map_congr_left fun x _ => ?_
    show (x.2, _) = (x.2, _)
    rw [logEntries_filter, Nat.zero_add]
  obtain ⟨m, h1, _, h3, h4⟩ := allSteps_spec _ 0 P hg (Nat.le_refl _)
  refine ⟨m, ?_, fun log hl e he hid => ?_, ?_⟩
  · unfold batchPoints
    rw [ht]
    dsimp only
    rw [h1, Nat.zero_add]
    congr 2
    unfold keyedFrom history
    refine congrArg List.flatten (List.map_congr_left fun c _ => ?_)
    rw [List.flatMap_map]
    refine congrArg List.flatten (List.map_congr_left fun x _ => ?_)
    rw [Nat.zero_add]
    congr 1
    unfold keysAt delivered
    rw [List.filter_filter]
    congr 1
    refine List.filter_congr fun e _ => ?_
    rw [Bool.decide_and, Bool.and_comm]
  · obtain ⟨i, hi, e'⟩ := List.getElem_of_mem hl
    have := h3 (i, log.filter fun e => e.id = id) (List.mem_map.2 ⟨(log, i), by
      rw [List.mk_mem_zipIdx_iff_getElem?]
      rw [List.getElem?_eq_getElem hi, e'], rfl⟩) e (List.mem_filter.2 ⟨he, by simpa using hid⟩)
    omega
  · rcases h4 with h4 | ⟨x, hx, e, he, h4⟩
    · exact Or.inl h4
    · obtain ⟨log, hl, e'⟩ := hP x hx
      rw [e'] at he
      exact Or.inr ⟨log, hl, e, (List.mem_filter.1 he).1, by simpa using (List.mem_filter.1 he).2, by omega⟩

/-- **C99, the tool**: for logs that are in order, and even sizes, the heatmap counts each key of each batch of each log once, with the colour of the log, at the cell of
its number (in the order of first occurrence) and its step, and all of it is saved. -/
theorem C99_analyze_partial {rows cols : Nat} (hr : 0 < rows) (hr2 : rows % 2 = 0) (hc : 0 < cols) (hc2 : cols % 2 = 0) {id skip : Nat} (color : Nat → α)
    {logs : List (List (Entry K))} (h : ∀ log ∈ logs, Ordered id skip log) :
    ∃ n hm, analyze rows cols id skip color logs = some hm ∧ (∀ log ∈ logs, ∀ e ∈ log, e.id = id → e.idx < n + skip) ∧
      (n ≤ 1 ∨ ∃ log ∈ logs, ∃ e ∈ log, e.id = id ∧ e.idx + 1 = n + skip) ∧
      let pts := (history id skip n logs).map fun x => ((firsts ((history id skip n logs).map (·.1))).idxOf x.1, x.2.1, color x.2.2)
      (∀ i j, hm.cell i j = total pts hm.sampleFactor hm.stepFactor i j) ∧
        IsFactor rows (pts.map (·.1)) hm.sampleFactor ∧ IsFactor cols (pts.map (·.2.1)) hm.stepFactor ∧
        ∀ p ∈ pts, hm.saved (p.1 / hm.sampleFactor) (p.2.1 / hm.stepFactor) = true := by
  obtain ⟨n, h1, h2, h3⟩ := batchPoints_spec h
  obtain ⟨hm, e, g1, g2, g3, _, _, g4⟩ := C99_heatmap_partial (α := α) hr hr2 hc hc2
    ((history id skip n logs).map fun x => ((firsts ((history id skip n logs).map (·.1))).idxOf x.1, x.2.1, color x.2.2))
  refine ⟨n, hm, ?_, h2, h3, g1, g2, g3, g4⟩
  unfold analyze
  rw [h1, Option.bind_some, number_firsts, List.map_map]
  exact e

/-- The logs of a loader are in order, without skipping. -/
theorem C99_written (id : Nat) (batches : List (Option (List K))) : Ordered id 0 (written id batches) := by
  have : ∀ (l : List (Option (List K))) (n : Nat), ((l.zipIdx n).map fun x => (⟨id, x.2, x.1⟩ : Entry K)).Pairwise (fun a b => a.idx ≤ b.idx) ∧
      ∀ e ∈ (l.zipIdx n).map fun x => (⟨id, x.2, x.1⟩ : Entry K), n ≤ e.idx := by
    intro l
    induction l with
    | nil => intro n; simp
    | cons a l ih =>
      intro n
      obtain ⟨i1, i2⟩ := ih (n + 1)
      rw [List.zipIdx_cons, List.map_cons]
      refine ⟨List.pairwise_cons.2 ⟨fun e he => ?_, i1⟩, fun e he => ?_⟩
      · have := i2 e he; show n ≤ _; omega
      · rcases List.mem_cons.1 he with rfl | he
        · exact Nat.le_refl _
        · have := i2 e he; omega
  exact ⟨(this batches 0).1.filter _, fun e _ _ => Nat.zero_le _⟩

/-! ## What does not hold -/

theorem stepLogs_none {its : List (Nat × List (Tok K))} {x : Nat × List (Tok K)} (hx : x ∈ its) (hd : drain x.2 = none) : stepLogs its = none := by
  induction its with
  | nil => cases hx
  | cons y its ih =>
    obtain ⟨src, l⟩ := y
    unfold stepLogs
    rcases List.mem_cons.1 hx with rfl | hx
    · rw [hd]; rfl
    · rw [ih hx]
      cases drain l <;> rfl

/-- **C99 does not hold with `--skip`**: every loader writes its batches from number 0 on; with a positive `--skip` this is always an `AssertionError`, instead of leaving
out the first batches. -/
theorem C99_violated_skip {id skip : Nat} (hs : 0 < skip) {logs : List (List (Entry K))} {batches : List (Option (List K))} (hb : batches ≠ [])
    (hl : written id batches ∈ logs) (rows cols : Nat) (color : Nat → α) : analyze rows cols id skip color logs = none := by
  obtain ⟨b, bs, rfl⟩ := List.exists_cons_of_ne_nil hb
  obtain ⟨i, hi, e⟩ := List.getElem_of_mem hl
  have hf : logEntries id skip (written id (b :: bs)) = [.fail] := by
    show (if id = id then (if 0 < skip then _ else _) else _) = _
    rw [if_pos rfl, if_pos hs]
  have hm : (i, ([.fail] : List (Tok K))) ∈ logs.zipIdx.map fun x => (x.2, logEntries id skip x.1) :=
    List.mem_map.2 ⟨(written id (b :: bs), i), by rw [List.mk_mem_zipIdx_iff_getElem?, List.getElem?_eq_getElem hi, e], by rw [hf]⟩
  have hn := stepLogs_none hm rfl
  unfold analyze batchPoints
  dsimp only
  generalize (logs.zipIdx.map fun x => (x.2, logEntries id skip x.1)) = its at hm hn
  cases its with
  | nil => cases hm
  | cons x its =>
    cases enough (x :: its) with
    | zero => rfl
    | succ n =>
      show ((stepLogs (x :: its)).bind _).bind _ = none
      rw [hn]
      rfl

/-- The tokens contain a key, or an error. -/
def Some' (l : List (Tok K)) : Prop := (∃ k, Tok.keys [k] ∈ l) ∨ Tok.fail ∈ l

theorem drain_some' : ∀ {l : List (Tok K)} {ks : List K} {o : Option (List (Tok K))}, Some' l → drain l = some (ks, o) →
    ks ≠ [] ∨ ∃ r, o = some r ∧ Some' r
  | [], ks, o, h, _ => by rcases h with ⟨k, h⟩ | h <;> cases h
  | .next :: l, ks, o, h, e => by
    cases e
    right
    refine ⟨l, rfl, ?_⟩
    rcases h with ⟨k, h⟩ | h
    · rcases List.mem_cons.1 h with h | h
      · cases h
      · exact Or.inl ⟨k, h⟩
    · rcases List.mem_cons.1 h with h | h
      · cases h
      · exact Or.inr h
  | .keys a :: l, ks, o, h, e => by
    obtain ⟨⟨x, y⟩, h1, h2⟩ := Option.map_eq_some_iff.1 e
    cases h2
    have hl : a ≠ [] ∨ Some' l := by
      rcases h with ⟨k, h⟩ | h
      · rcases List.mem_cons.1 h with h | h
        · cases h; left; simp
        · exact Or.inr (Or.inl ⟨k, h⟩)
      · rcases List.mem_cons.1 h with h | h
        · cases h
        · exact Or.inr (Or.inr h)
    rcases hl with hl | hl
    · left
      intro hh
      exact hl (List.append_eq_nil_iff.1 hh).1
    · rcases drain_some' hl h1 with h3 | h3
      · left
        intro hh
        exact h3 (List.append_eq_nil_iff.1 hh).2
      · exact Or.inr h3
  | .fail :: l, ks, o, h, e => by cases e

theorem stepLogs_some' : ∀ {its : List (Nat × List (Tok K))} {r}, (∃ x ∈ its, Some' x.2) → stepLogs its = some r → r.1 ≠ [] ∨ ∃ x ∈ r.2, Some' x.2
  | [], r, ⟨x, hx, _⟩, _ => by cases hx
  | (src, l) :: its, r, ⟨x, hx, hs⟩, h => by
    unfold stepLogs at h
    obtain ⟨⟨ks, o⟩, h1, h⟩ := Option.bind_eq_some_iff.1 h
    obtain ⟨r', h2, rfl⟩ := Option.map_eq_some_iff.1 h
    rcases List.mem_cons.1 hx with rfl | hx
    · rcases drain_some' hs h1 with h3 | ⟨l', rfl, h3⟩
      · left
        intro hh
        exact h3 (List.map_eq_nil_iff.1 (List.append_eq_nil_iff.1 hh).1)
      · exact Or.inr ⟨(src, l'), List.mem_cons_self .., h3⟩
    · rcases stepLogs_some' ⟨x, hx, hs⟩ h2 with h3 | ⟨y, hy, h3⟩
      · left
        intro hh
        exact h3 (List.append_eq_nil_iff.1 hh).2
      · right
        cases o with
        | none => exact ⟨y, hy, h3⟩
        | some l' => exact ⟨y, List.mem_cons_of_mem _ hy, h3⟩

theorem allSteps_some' : ∀ (n count : Nat) (its : List (Nat × List (Tok K))) {r}, (∃ x ∈ its, Some' x.2) → allSteps n count its = some r → r.1 ≠ []
  | n, count, [], r, ⟨x, hx, _⟩, _ => by cases hx
  | 0, count, x :: its, r, _, h => by unfold allSteps at h; cases h
  | n + 1, count, x :: its, r, hs, h => by
    unfold allSteps at h
    obtain ⟨q, h1, h⟩ := Option.bind_eq_some_iff.1 h
    obtain ⟨r', h2, rfl⟩ := Option.map_eq_some_iff.1 h
    intro hh
    obtain ⟨h3, h4⟩ := List.append_eq_nil_iff.1 hh
    rcases stepLogs_some' hs h1 with h5 | h5
    · exact h5 (List.map_eq_nil_iff.1 h3)
    · exact allSteps_some' n (count + 1) q.2 h5 h2 h4

theorem loaderKeys_some' {start : Nat} : ∀ {l : List (Nat × K)} (count : Nat), (∃ e ∈ l, start ≤ e.1) → Some' (loaderKeys start count l)
  | [], count, ⟨e, he, _⟩ => by cases he
  | a :: l, count, ⟨e, he, hs⟩ => by
    unfold loaderKeys
    split
    · rename_i ha
      refine loaderKeys_some' count ?_
      rcases List.mem_cons.1 he with rfl | he
      · omega
      · exact ⟨e, he, hs⟩
    · split
      · exact Or.inr (List.mem_singleton_self _)
      · exact Or.inl ⟨a.2, List.mem_append_right _ (List.mem_cons_self ..)⟩

/-- **C99 does not hold for the order of loading**: without keys of batches in the logs, or with `--force-loading-order`, the tool ends with an exception as soon as there is
anything to count. -/
theorem C99_violated_loading {skip : Nat} {logs : List (List (Nat × K))} {log : List (Nat × K)} (hl : log ∈ logs) {e : Nat × K} (he : e ∈ log) (hs : skip ≤ e.1)
    (rows cols : Nat) : (analyzeLoading rows cols skip logs : Option (Heat α)) = none := by
  obtain ⟨i, hi, hi'⟩ := List.getElem_of_mem hl
  unfold analyzeLoading
  dsimp only
  cases h : allSteps (enough (logs.zipIdx.map fun x => (x.2, loaderKeys skip skip x.1))) 0 (logs.zipIdx.map fun x => (x.2, loaderKeys skip skip x.1)) with
  | none => rfl
  | some r =>
    have := allSteps_some' _ _ _ ⟨(i, loaderKeys skip skip log), List.mem_map.2 ⟨(log, i), by
      rw [List.mk_mem_zipIdx_iff_getElem?, List.getElem?_eq_getElem hi, hi'], rfl⟩, loaderKeys_some' skip ⟨e, he, hs⟩⟩ h
    rw [Option.bind_some, if_neg this]

/-! ## Examples -/

/-- Two ranks; the sample 7 is delivered by both, and a batch has no keys; the first file has entries of another loader as well. -/
def exLogs : List (List (Entry Nat)) :=
  [⟨5, 0, some [99]⟩ :: written 3 [some [7, 8], some [9], none, some [10, 11]], written 3 [some [7], some [12, 8], some [13]]]

example : ∀ log ∈ exLogs, Ordered 3 0 log := by
  intro log hl
  rcases List.mem_cons.1 hl with rfl | hl
  · exact ⟨(C99_written 3 [some [7, 8], some [9], none, some [10, 11]]).1, fun _ _ _ => Nat.zero_le _⟩
  · rw [List.mem_singleton.1 hl]; exact C99_written _ _

def exColor (src : Nat) : Nat := if src = 0 then 1 else 100

example : (analyze 4 2 3 0 exColor exLogs).map (fun h => (h.sampleFactor, h.stepFactor, h.sampleMax, h.stepMax)) = some (2, 2, 3, 1) := by decide +kernel
example : (analyze 4 2 3 0 exColor exLogs).map (fun h => (List.range 4).map fun i => (List.range 2).map fun j => h.cell i j) =
    some [[202, 0], [101, 0], [0, 101], [0, 1]] := by decide +kernel
example : (batchPoints 3 0 exLogs).map (·.2) = some 4 := by decide +kernel

/-- One row: the first three points are lost. -/
example : ((Heat.empty 1 2 : Heat Nat).addAll [(0, 0, 1), (0, 0, 1), (0, 1, 1), (1, 0, 1)]).map (fun h => (h.cell 0 0, h.cell 0 1)) = some (1, 0) := by decide +kernel
example : ((Heat.empty 3 2 : Heat Nat).addAll [(0, 0, 1), (3, 0, 1)]).isNone := by decide +kernel

end Verif.Debug
