import Verif.Debug.Model

/-!
# Property C99: the heatmap
-/

namespace Verif.Debug

variable {α : Type} [AddCommMonoid α]

/-! ## Specification -/

/-- The sum of the colours of those points whose sample number, divided by `fs`, is `i`, and whose step, divided by `ft`, is `j` -/
def total (pts : List (Nat × Nat × α)) (fs ft i j : Nat) : α :=
  ((pts.filter fun p => p.1 / fs = i ∧ p.2.1 / ft = j).map fun p => p.2.2).sum

/-- The largest of the numbers, at least one of them being reached; -1 if there are none -/
def IsMax (l : List Nat) (m : Int) : Prop := (l = [] ∧ m = -1) ∨ ((∀ x ∈ l, (x : Int) ≤ m) ∧ ∃ x ∈ l, (x : Int) = m)

/-- `f` is the smallest power of two such that `n * f` is more than each of the numbers -/
def IsFactor (n : Nat) (l : List Nat) (f : Nat) : Prop :=
  (∃ k, f = 2 ^ k) ∧ (∀ x ∈ l, x < n * f) ∧ ∀ k, (∀ x ∈ l, x < n * 2 ^ k) → f ≤ 2 ^ k

/-! ## Halving -/

theorem total_cons (p : Nat × Nat × α) (pts : List (Nat × Nat × α)) (fs ft i j : Nat) :
    total (p :: pts) fs ft i j = (if p.1 / fs = i ∧ p.2.1 / ft = j then p.2.2 else 0) + total pts fs ft i j := by
  unfold total
  rw [List.filter_cons]
  by_cases h : p.1 / fs = i ∧ p.2.1 / ft = j
  · simp [h]
  · simp [h]

theorem total_append (pts qs : List (Nat × Nat × α)) (fs ft i j : Nat) :
    total (pts ++ qs) fs ft i j = total pts fs ft i j + total qs fs ft i j := by
  unfold total
  simp

theorem total_rows (pts : List (Nat × Nat × α)) (fs ft i j : Nat) :
    total pts (fs * 2) ft i j = total pts fs ft (2 * i) j + total pts fs ft (2 * i + 1) j := by
  induction pts with
  | nil => simp [total]
  | cons p pts ih =>
    rw [total_cons, total_cons, total_cons, ih, ← Nat.div_div_eq_div_mul]
    have : ∀ x y z u v : α, x = y + z → x + (u + v) = y + u + (z + v) := by
      rintro x y z u v rfl
      rw [add_add_add_comm]
    apply this
    by_cases h : p.2.1 / ft = j
    · simp only [h, and_true]
      by_cases h1 : p.1 / fs = 2 * i
      · rw [if_pos (by omega), if_pos h1, if_neg (by omega), add_zero]
      · by_cases h2 : p.1 / fs = 2 * i + 1
        · rw [if_pos (by omega), if_neg h1, if_pos h2, zero_add]
        · rw [if_neg (by omega), if_neg h1, if_neg h2, zero_add]
    · simp [h]

theorem total_cols (pts : List (Nat × Nat × α)) (fs ft i j : Nat) :
    total pts fs (ft * 2) i j = total pts fs ft i (2 * j) + total pts fs ft i (2 * j + 1) := by
  induction pts with
  | nil => simp [total]
  | cons p pts ih =>
    rw [total_cons, total_cons, total_cons, ih, ← Nat.div_div_eq_div_mul]
    have : ∀ x y z u v : α, x = y + z → x + (u + v) = y + u + (z + v) := by
      rintro x y z u v rfl
      rw [add_add_add_comm]
    apply this
    by_cases h : p.1 / fs = i
    · simp only [h, true_and]
      by_cases h1 : p.2.1 / ft = 2 * j
      · rw [if_pos (by omega), if_pos h1, if_neg (by omega), add_zero]
      · by_cases h2 : p.2.1 / ft = 2 * j + 1
        · rw [if_pos (by omega), if_neg h1, if_pos h2, zero_add]
        · rw [if_neg (by omega), if_neg h1, if_neg h2, zero_add]
    · simp [h]

theorem total_zero {pts : List (Nat × Nat × α)} {fs ft i j : Nat} (h : ∀ p ∈ pts, ¬ (p.1 / fs = i ∧ p.2.1 / ft = j)) : total pts fs ft i j = 0 := by
  unfold total
  rw [List.filter_eq_nil_iff.2 (fun p hp => by simpa using h p hp)]
  rfl

/-- The cells are right for the points so far. -/
structure CellOk (pts : List (Nat × Nat × α)) (h : Heat α) : Prop where
  rows : 0 < h.rows ∧ h.rows % 2 = 0
  cols : 0 < h.cols ∧ h.cols % 2 = 0
  sf : 0 < h.sampleFactor
  tf : 0 < h.stepFactor
  inRows : ∀ p ∈ pts, p.1 < h.rows * h.sampleFactor
  inCols : ∀ p ∈ pts, p.2.1 < h.cols * h.stepFactor
  cell : ∀ i j, h.cell i j = total pts h.sampleFactor h.stepFactor i j

theorem cellOk_rows {pts : List (Nat × Nat × α)} {h : Heat α} (ok : CellOk pts h) : ∃ c, halve h.rows h.cell = some c ∧
    CellOk pts { h with cell := c, sampleFactor := h.sampleFactor * 2, sampleMax := 0 } := by
  refine ⟨_, if_pos ok.rows.2, ok.rows, ok.cols, ?_, ok.tf, ?_, ok.inCols, ?_⟩
  · have := ok.sf; show 0 < h.sampleFactor * 2; omega
  · intro p hp
    have := ok.inRows p hp
    show p.1 < h.rows * (h.sampleFactor * 2)
    rw [← Nat.mul_assoc]; omega
  · intro i j
    show (if i < h.rows / 2 then h.cell (2 * i) + h.cell (2 * i + 1) else 0) j = total pts (h.sampleFactor * 2) h.stepFactor i j
    by_cases hi : i < h.rows / 2
    · rw [if_pos hi, total_rows, Pi.add_apply, ok.cell, ok.cell]
    · rw [if_neg hi, Pi.zero_apply, total_zero]
      rintro p hp ⟨h1, _⟩
      apply hi
      rw [← h1, Nat.div_lt_iff_lt_mul (by have := ok.sf; omega)]
      have h2 := ok.inRows p hp
      have h3 : h.rows / 2 * (h.sampleFactor * 2) = h.rows * h.sampleFactor := by
        have := ok.rows.2
        have : h.rows / 2 * 2 = h.rows := by omega
        calc h.rows / 2 * (h.sampleFactor * 2) = h.rows / 2 * 2 * h.sampleFactor := by
              rw [Nat.mul_comm h.sampleFactor 2, Nat.mul_assoc]
          _ = _ := by rw [this]
      omega

theorem cellOk_cols {pts : List (Nat × Nat × α)} {h : Heat α} (ok : CellOk pts h) : ∃ c, halve h.cols (fun j i => h.cell i j) = some c ∧
    CellOk pts { h with cell := fun i j => c j i, stepFactor := h.stepFactor * 2, stepMax := 0 } := by
  refine ⟨_, if_pos ok.cols.2, ok.rows, ok.cols, ok.sf, ?_, ok.inRows, ?_, ?_⟩
  · have := ok.tf; show 0 < h.stepFactor * 2; omega
  · intro p hp
    have := ok.inCols p hp
    show p.2.1 < h.cols * (h.stepFactor * 2)
    rw [← Nat.mul_assoc]; omega
  · intro i j
    show (if j < h.cols / 2 then (fun i => h.cell i (2 * j)) + (fun i => h.cell i (2 * j + 1)) else 0) i = total pts h.sampleFactor (h.stepFactor * 2) i j
    by_cases hi : j < h.cols / 2
    · rw [if_pos hi, total_cols, Pi.add_apply, ok.cell, ok.cell]
    · rw [if_neg hi, Pi.zero_apply, total_zero]
      rintro p hp ⟨_, h1⟩
      apply hi
      rw [← h1, Nat.div_lt_iff_lt_mul (by have := ok.tf; omega)]
      have h2 := ok.inCols p hp
      have h3 : h.cols / 2 * (h.stepFactor * 2) = h.cols * h.stepFactor := by
        have := ok.cols.2
        have : h.cols / 2 * 2 = h.cols := by omega
        calc h.cols / 2 * (h.stepFactor * 2) = h.cols / 2 * 2 * h.stepFactor := by
              rw [Nat.mul_comm h.stepFactor 2, Nat.mul_assoc]
          _ = _ := by rw [this]
      omega

/-- What growing does to factor and maximum -/
def Grown (n x f f' : Nat) (m m' : Int) : Prop :=
  x < n * f' ∧ ((f' = f ∧ m' = m) ∨ (n * f ≤ x ∧ m' = 0 ∧ n * f' ≤ 2 * x ∧ ∃ k, f' = f * 2 ^ k))

theorem growRows_spec {pts : List (Nat × Nat × α)} (sample : Nat) : ∀ (n : Nat) (h : Heat α), CellOk pts h → sample < h.rows * h.sampleFactor * 2 ^ n →
    ∃ h', growRows n sample h = some h' ∧ CellOk pts h' ∧ h'.rows = h.rows ∧ h'.cols = h.cols ∧ h'.stepFactor = h.stepFactor ∧ h'.stepMax = h.stepMax ∧
      Grown h.rows sample h.sampleFactor h'.sampleFactor h.sampleMax h'.sampleMax
  | 0, h, ok, hn => by
    refine ⟨h, if_neg (by omega), ok, rfl, rfl, rfl, rfl, by omega, Or.inl ⟨rfl, rfl⟩⟩
  | n + 1, h, ok, hn => by
    unfold growRows
    by_cases hl : h.rows * h.sampleFactor ≤ sample
    · rw [if_pos hl]
      obtain ⟨c, hc, ok'⟩ := cellOk_rows ok
      rw [hc, Option.bind_some]
      obtain ⟨h', e, ok'', h1, h2, h3, h4, h5, h6⟩ := growRows_spec sample n _ ok' (by
        show sample < h.rows * (h.sampleFactor * 2) * 2 ^ n
        rw [Nat.pow_succ] at hn
        calc sample < h.rows * h.sampleFactor * (2 ^ n * 2) := hn
          _ = _ := by rw [Nat.mul_comm (2 ^ n) 2, ← Nat.mul_assoc, ← Nat.mul_assoc])
      refine ⟨h', e, ok'', h1, h2, h3, h4, h5, Or.inr ⟨hl, ?_⟩⟩
      rcases h6 with ⟨h6, h7⟩ | ⟨h6, h7, h8, k, hk⟩
      · refine ⟨h7, ?_, 1, by rw [h6, Nat.pow_one]⟩
        rw [h6]
        show h.rows * (h.sampleFactor * 2) ≤ _
        rw [← Nat.mul_assoc]; omega
      · exact ⟨h7, h8, k + 1, by rw [hk, Nat.pow_succ', Nat.mul_assoc]⟩
    · rw [if_neg hl]
      exact ⟨h, rfl, ok, rfl, rfl, rfl, rfl, by omega, Or.inl ⟨rfl, rfl⟩⟩

theorem growCols_spec {pts : List (Nat × Nat × α)} (step : Nat) : ∀ (n : Nat) (h : Heat α), CellOk pts h → step < h.cols * h.stepFactor * 2 ^ n →
    ∃ h', growCols n step h = some h' ∧ CellOk pts h' ∧ h'.rows = h.rows ∧ h'.cols = h.cols ∧ h'.sampleFactor = h.sampleFactor ∧
      h'.sampleMax = h.sampleMax ∧ Grown h.cols step h.stepFactor h'.stepFactor h.stepMax h'.stepMax
  | 0, h, ok, hn => by
    refine ⟨h, if_neg (by omega), ok, rfl, rfl, rfl, rfl, by omega, Or.inl ⟨rfl, rfl⟩⟩
  | n + 1, h, ok, hn => by
    unfold growCols
    by_cases hl : h.cols * h.stepFactor ≤ step
    · rw [if_pos hl]
      obtain ⟨c, hc, ok'⟩ := cellOk_cols ok
      rw [hc, Option.bind_some]
      obtain ⟨h', e, ok'', h1, h2, h3, h4, h5, h6⟩ := growCols_spec step n _ ok' (by
        show step < h.cols * (h.stepFactor * 2) * 2 ^ n
        rw [Nat.pow_succ] at hn
        calc step < h.cols * h.stepFactor * (2 ^ n * 2) := hn
          _ = _ := by rw [Nat.mul_comm (2 ^ n) 2, ← Nat.mul_assoc, ← Nat.mul_assoc])
      refine ⟨h', e, ok'', h1, h2, h3, h4, h5, Or.inr ⟨hl, ?_⟩⟩
      rcases h6 with ⟨h6, h7⟩ | ⟨h6, h7, h8, k, hk⟩
      · refine ⟨h7, ?_, 1, by rw [h6, Nat.pow_one]⟩
        rw [h6]
        show h.cols * (h.stepFactor * 2) ≤ _
        rw [← Nat.mul_assoc]; omega
      · exact ⟨h7, h8, k + 1, by rw [hk, Nat.pow_succ', Nat.mul_assoc]⟩
    · rw [if_neg hl]
      exact ⟨h, rfl, ok, rfl, rfl, rfl, rfl, by omega, Or.inl ⟨rfl, rfl⟩⟩

/-! ## One point -/

theorem factor_grown {n x f f' : Nat} {m m' : Int} {l : List Nat} (hn : 0 < n) (hf : IsFactor n l f) (hg : Grown n x f f' m m') : IsFactor n (l ++ [x]) f' := by
  obtain ⟨⟨k, rfl⟩, h2, h3⟩ := hf
  obtain ⟨g1, g2⟩ := hg
  have hle : 2 ^ k ≤ f' := by
    rcases g2 with ⟨rfl, _⟩ | ⟨_, _, _, k', rfl⟩
    · exact Nat.le_refl _
    · exact Nat.le_mul_of_pos_right _ (Nat.pos_of_ne_zero (by simp))
  refine ⟨?_, fun y hy => ?_, fun q hq => ?_⟩
  · rcases g2 with ⟨rfl, _⟩ | ⟨_, _, _, k', rfl⟩
    · exact ⟨k, rfl⟩
    · exact ⟨k + k', by rw [Nat.pow_add]⟩
  · rcases List.mem_append.1 hy with hy | hy
    · exact Nat.lt_of_lt_of_le (h2 y hy) (Nat.mul_le_mul_left n hle)
    · rw [List.mem_singleton.1 hy]; exact g1
  · rcases g2 with ⟨rfl, _⟩ | ⟨g3, _, g4, k', rfl⟩
    · exact h3 q fun y hy => hq y (List.mem_append_left _ hy)
    · have hx := hq x (List.mem_append_right _ (List.mem_singleton_self x))
      -- a smaller power of two is at most half of it
      by_contra hlt
      have hlt : 2 ^ q < 2 ^ (k + k') := by rw [Nat.pow_add]; omega
      have hq' : q + 1 ≤ k + k' := (Nat.pow_lt_pow_iff_right (by omega)).1 hlt
      have h5 : 2 ^ (q + 1) ≤ 2 ^ (k + k') := Nat.pow_le_pow_right (by omega) hq'
      rw [Nat.pow_add 2 k k', Nat.pow_succ] at h5
      have h6 : n * (2 ^ q * 2) ≤ n * (2 ^ k * 2 ^ k') := Nat.mul_le_mul_left n h5
      rw [← Nat.mul_assoc] at h6
      omega

theorem max_grown {n x f f' : Nat} {m m' : Int} {l : List Nat} (hf : ∀ y ∈ l, y < n * f) (hm : IsMax (l.map (· / f)) m) (hg : Grown n x f f' m m') :
    IsMax ((l ++ [x]).map (· / f')) (max m' (x / f' : Nat)) := by
  obtain ⟨_, ⟨rfl, rfl⟩ | ⟨g3, rfl, g4, k', rfl⟩⟩ := hg
  · refine Or.inr ?_
    rw [List.map_append]
    rcases hm with ⟨h1, rfl⟩ | ⟨h1, y, hy, h2⟩
    · rw [h1, List.map_singleton, List.nil_append]
      refine ⟨fun y hy => ?_, x / f', List.mem_singleton_self _, ?_⟩
      · rw [List.mem_singleton.1 hy]; exact Int.le_max_right _ _
      · rw [Int.max_eq_right (Int.le_trans (by decide) (Int.natCast_nonneg _))]
    · refine ⟨fun z hz => ?_, ?_⟩
      · rcases List.mem_append.1 hz with hz | hz
        · exact Int.le_trans (h1 z hz) (Int.le_max_left _ _)
        · rw [List.map_singleton] at hz
          rw [List.mem_singleton.1 hz]; exact Int.le_max_right _ _
      · rcases Int.le_total m' ((x / f' : Nat) : Int) with hc | hc
        · exact ⟨x / f', List.mem_append_right _ (by simp), by rw [Int.max_eq_right hc]⟩
        · exact ⟨y, List.mem_append_left _ hy, by rw [Int.max_eq_left hc]; exact h2⟩
  · refine Or.inr ⟨fun y hy => ?_, x / (f * 2 ^ k'), List.mem_map.2 ⟨x, List.mem_append_right _ (List.mem_singleton_self x), rfl⟩, ?_⟩
    · obtain ⟨z, hz, rfl⟩ := List.mem_map.1 hy
      refine Int.le_trans ?_ (Int.le_max_right _ _)
      have : z ≤ x := by
        rcases List.mem_append.1 hz with hz | hz
        · have := hf z hz; omega
        · rw [List.mem_singleton.1 hz]; exact Nat.le_refl _
      exact_mod_cast Nat.div_le_div_right this
    · rw [Int.max_eq_right]; exact Int.natCast_nonneg _

/-- The heatmap is right for the points so far. -/
structure HeatOk (rows cols : Nat) (pts : List (Nat × Nat × α)) (h : Heat α) : Prop where
  hrows : h.rows = rows
  hcols : h.cols = cols
  cells : CellOk pts h
  sf : IsFactor rows (pts.map (·.1)) h.sampleFactor
  tf : IsFactor cols (pts.map (·.2.1)) h.stepFactor
  smax : IsMax (pts.map (·.1 / h.sampleFactor)) h.sampleMax
  tmax : IsMax (pts.map (·.2.1 / h.stepFactor)) h.stepMax

theorem heatOk_empty {rows cols : Nat} (hr : 0 < rows ∧ rows % 2 = 0) (hc : 0 < cols ∧ cols % 2 = 0) : HeatOk rows cols [] (Heat.empty rows cols : Heat α) := by
  have hf : ∀ n, IsFactor n [] 1 := fun n => ⟨⟨0, rfl⟩, by simp, fun k _ => Nat.one_le_two_pow⟩
  refine ⟨rfl, rfl, ⟨hr, hc, Nat.one_pos, Nat.one_pos, by simp, by simp, fun i j => ?_⟩, hf _, hf _, Or.inl ⟨rfl, rfl⟩, Or.inl ⟨rfl, rfl⟩⟩
  simp [total, Heat.empty]

theorem heatOk_add {rows cols : Nat} {pts : List (Nat × Nat × α)} {h : Heat α} (ok : HeatOk rows cols pts h) (s t : Nat) (c : α) :
    ∃ h', h.add s t c = some h' ∧ HeatOk rows cols (pts ++ [(s, t, c)]) h' := by
  obtain ⟨rfl, rfl, ok, hsf, htf, hsm, htm⟩ := ok
  have big : ∀ (n f x : Nat), 0 < n → 0 < f → x < n * f * 2 ^ (x + 1) := fun n f x hn hf => by
    have h1 : x + 1 < 2 ^ (x + 1) := Nat.lt_two_pow_self
    have h2 : 1 ≤ n * f := Nat.mul_pos hn hf
    calc x < 2 ^ (x + 1) := by omega
      _ = 1 * 2 ^ (x + 1) := (Nat.one_mul _).symm
      _ ≤ _ := Nat.mul_le_mul_right _ h2
  obtain ⟨h1, e1, ok1, a1, a2, a3, a4, a5⟩ := growRows_spec s (s + 1) h ok (big _ _ _ ok.rows.1 ok.sf)
  obtain ⟨h2, e2, ok2, b1, b2, b3, b4, b5⟩ := growCols_spec t (t + 1) h1 ok1 (big _ _ _ ok1.cols.1 ok1.tf)
  unfold Heat.add
  rw [e1, Option.bind_some, e2, Option.bind_some]
  refine ⟨_, rfl, b1.trans a1, b2.trans a2, ⟨ok2.rows, ok2.cols, ok2.sf, ok2.tf, ?_, ?_, ?_⟩, ?_, ?_, ?_, ?_⟩
  · intro p hp
    show p.1 < h2.rows * h2.sampleFactor
    rcases List.mem_append.1 hp with hp | hp
    · exact ok2.inRows p hp
    · rw [List.mem_singleton.1 hp, b1, a1, b3]; exact a5.1
  · intro p hp
    show p.2.1 < h2.cols * h2.stepFactor
    rcases List.mem_append.1 hp with hp | hp
    · exact ok2.inCols p hp
    · rw [List.mem_singleton.1 hp, b2]; exact b5.1
  · intro i j
    show (if i = s / h2.sampleFactor ∧ j = t / h2.stepFactor then h2.cell i j + c else h2.cell i j) = total (pts ++ [(s, t, c)]) h2.sampleFactor h2.stepFactor i j
    rw [total_append, total_cons, ok2.cell]
    by_cases hij : i = s / h2.sampleFactor ∧ j = t / h2.stepFactor
    · rw [if_pos hij, if_pos ⟨hij.1.symm, hij.2.symm⟩]
      simp [total]
    · rw [if_neg hij, if_neg (fun hh => hij ⟨hh.1.symm, hh.2.symm⟩)]
      simp [total]
  · rw [List.map_append]
    show IsFactor h.rows _ h2.sampleFactor
    rw [b3]
    exact factor_grown ok.rows.1 hsf a5
  · rw [List.map_append]
    show IsFactor h.cols _ h2.stepFactor
    rw [a2, a3, a4] at b5
    exact factor_grown ok.cols.1 htf b5
  · have := max_grown (l := pts.map (·.1)) (m := h.sampleMax) (fun y hy => by
      obtain ⟨p, hp, rfl⟩ := List.mem_map.1 hy
      exact ok.inRows p hp) (by rw [List.map_map]; exact hsm) a5
    show IsMax ((pts ++ [(s, t, c)]).map (·.1 / h2.sampleFactor)) (max h2.sampleMax (s / h2.sampleFactor : Nat))
    rw [b3, b4]
    have e : (pts ++ [(s, t, c)]).map (·.1 / h1.sampleFactor) = (pts.map (·.1) ++ [s]).map (· / h1.sampleFactor) := by simp
    rw [e]
    exact this
  · rw [a2, a3, a4] at b5
    have := max_grown (l := pts.map (·.2.1)) (m := h.stepMax) (fun y hy => by
      obtain ⟨p, hp, rfl⟩ := List.mem_map.1 hy
      exact ok.inCols p hp) (by rw [List.map_map]; exact htm) b5
    show IsMax ((pts ++ [(s, t, c)]).map (·.2.1 / h2.stepFactor)) (max h2.stepMax (t / h2.stepFactor : Nat))
    have e : (pts ++ [(s, t, c)]).map (·.2.1 / h2.stepFactor) = (pts.map (·.2.1) ++ [t]).map (· / h2.stepFactor) := by simp
    rw [e]
    exact this

theorem heatOk_addAll {rows cols : Nat} : ∀ (l pts : List (Nat × Nat × α)) (h : Heat α), HeatOk rows cols pts h →
    ∃ h', h.addAll l = some h' ∧ HeatOk rows cols (pts ++ l) h'
  | [], pts, h, ok => ⟨h, rfl, by rw [List.append_nil]; exact ok⟩
  | (s, t, c) :: l, pts, h, ok => by
    obtain ⟨h1, e1, ok1⟩ := heatOk_add ok s t c
    obtain ⟨h2, e2, ok2⟩ := heatOk_addAll l _ h1 ok1
    refine ⟨h2, ?_, ?_⟩
    · show (h.add s t c).bind (fun h => h.addAll l) = _
      rw [e1, Option.bind_some]; exact e2
    · rw [List.append_assoc] at ok2; exact ok2

/-- **C99, the heatmap**: for even sizes, whatever points are added in whatever order, each cell is in the end the sum of exactly the points that belong there; the
scales are the smallest powers of two with which all points fit; all points are in the part that is saved, and the part is not larger than needed. -/
theorem C99_heatmap_partial {rows cols : Nat} (hr : 0 < rows) (hr2 : rows % 2 = 0) (hc : 0 < cols) (hc2 : cols % 2 = 0) (pts : List (Nat × Nat × α)) :
    ∃ h, (Heat.empty rows cols).addAll pts = some h
      ∧ (∀ i j, h.cell i j = total pts h.sampleFactor h.stepFactor i j)
      ∧ IsFactor rows (pts.map (·.1)) h.sampleFactor ∧ IsFactor cols (pts.map (·.2.1)) h.stepFactor
      ∧ IsMax (pts.map (·.1 / h.sampleFactor)) h.sampleMax ∧ IsMax (pts.map (·.2.1 / h.stepFactor)) h.stepMax
      ∧ ∀ p ∈ pts, h.saved (p.1 / h.sampleFactor) (p.2.1 / h.stepFactor) = true := by
  obtain ⟨h, e, ok⟩ := heatOk_addAll pts [] _ (heatOk_empty (α := α) ⟨hr, hr2⟩ ⟨hc, hc2⟩)
  rw [List.nil_append] at ok
  refine ⟨h, e, ok.cells.cell, ok.sf, ok.tf, ok.smax, ok.tmax, fun p hp => ?_⟩
  have hmax : ∀ {l : List Nat} {m : Int} {x : Nat}, IsMax l m → x ∈ l → (x : Int) < m + 1 := by
    intro l m x hm hx
    rcases hm with ⟨rfl, _⟩ | ⟨h1, _⟩
    · cases hx
    · have := h1 x hx; omega
  unfold Heat.saved
  rw [decide_eq_true_eq]
  exact ⟨hmax ok.smax (List.mem_map_of_mem (f := (·.1 / h.sampleFactor)) hp), hmax ok.tmax (List.mem_map_of_mem (f := (·.2.1 / h.stepFactor)) hp)⟩

/-! ## Odd sizes -/

/-- **C99 does not hold for odd sizes**: with an odd number of rows, at least 3, any sample number that does not fit is an exception, whatever was added before. -/
theorem C99_violated_odd {h : Heat α} (h1 : h.rows % 2 = 1) (h3 : 3 ≤ h.rows) {s : Nat} (hs : h.rows * h.sampleFactor ≤ s) (t : Nat) (c : α) :
    h.add s t c = none := by
  unfold Heat.add growRows
  rw [if_pos hs]
  unfold halve
  rw [if_neg (by omega), if_neg (by omega)]
  rfl

/-- **C99 does not hold for a size of 1**: all that was counted before is lost when the scale changes. -/
theorem C99_violated_one {h h' : Heat α} (h1 : h.rows = 1) {s : Nat} (hs : h.sampleFactor ≤ s) (t : Nat) (c : α) (e : h.add s t c = some h') :
    ∀ i j, h'.cell i j = 0 ∨ h'.cell i j = c := by
  have key : ∀ (n : Nat) (g g' : Heat α), g.rows = 1 → (∀ i j, g.cell i j = 0) → growRows n s g = some g' → g'.rows = 1 ∧ ∀ i j, g'.cell i j = 0 := by
    intro n
    induction n with
    | zero =>
      intro g g' hg hz hh
      unfold growRows at hh
      split at hh
      · cases hh
      · cases hh; exact ⟨hg, hz⟩
    | succ n ih =>
      intro g g' hg hz hh
      unfold growRows at hh
      split at hh
      · unfold halve at hh
        rw [hg, if_neg (by omega), if_pos rfl, Option.bind_some] at hh
        exact ih _ _ rfl (fun i j => rfl) hh
      · cases hh; exact ⟨hg, hz⟩
  have keyc : ∀ (n : Nat) (g g' : Heat α), (∀ i j, g.cell i j = 0) → growCols n t g = some g' → ∀ i j, g'.cell i j = 0 := by
    intro n
    induction n with
    | zero =>
      intro g g' hz hh
      unfold growCols at hh
      split at hh
      · cases hh
      · cases hh; exact hz
    | succ n ih =>
      intro g g' hz hh
      unfold growCols at hh
      split at hh
      · obtain ⟨a, ha, hh⟩ := Option.bind_eq_some_iff.1 hh
        refine ih _ _ (fun i j => ?_) hh
        unfold halve at ha
        split at ha
        · cases ha
          show (if j < g.cols / 2 then (fun i => g.cell i (2 * j)) + (fun i => g.cell i (2 * j + 1)) else 0) i = 0
          split
          · rw [Pi.add_apply, hz, hz, add_zero]
          · rfl
        · split at ha
          · cases ha; rfl
          · cases ha
      · cases hh; exact hz
  unfold Heat.add at e
  obtain ⟨g, e1, e⟩ := Option.bind_eq_some_iff.1 e
  obtain ⟨g2, e2, e⟩ := Option.bind_eq_some_iff.1 e
  cases e
  have hz : ∀ i j, g.cell i j = 0 := by
    unfold growRows at e1
    rw [if_pos (by rw [h1]; omega)] at e1
    unfold halve at e1
    rw [h1, if_neg (by omega), if_pos rfl, Option.bind_some] at e1
    exact (key _ _ _ rfl (fun i j => rfl) e1).2
  have hz2 := keyc _ _ _ hz e2
  intro i j
  show (if _ then g2.cell i j + c else g2.cell i j) = 0 ∨ (if _ then g2.cell i j + c else g2.cell i j) = c
  split
  · right; rw [hz2, zero_add]
  · left; exact hz2 i j

end Verif.Debug
