import Verif.Sharder.Lemmas

/-! Helper lemmas about cutting a long range into slices (`_split_shard` with a maximum). -/

namespace Verif.Sharder
open Verif.Float

theorem roundHalfEven_bounds (x : ℚ) :
    (roundHalfEven x : ℚ) ≤ x + 1 / 2 ∧ x ≤ (roundHalfEven x : ℚ) + 1 / 2 := by
  have := abs_le.mp (roundHalfEven_err x)
  constructor <;> linarith [this.1, this.2]

/-- Facts about the number of slices in the splitting branch. -/
theorem sliceCount_spec (n m : ℕ) (hm : 0 < m) (hn : n ≤ 2 ^ 48)
    (hgt : (n : ℚ) > fl ((m : ℚ) * (3 / 2))) :
    3 * m < 2 * n ∧ 2 ≤ sliceCount n m ∧ sliceCount n m ≤ n ∧ 2 * n ≤ (2 * sliceCount n m + 1) * m := by
  have hmq : (0 : ℚ) < m := by exact_mod_cast hm
  have hnq : (n : ℚ) ≤ 2 ^ 48 := by exact_mod_cast hn
  have h32 : 3 * m < 2 * n := by
    by_contra hle
    have hlo := fl_lower ((m : ℚ) * (3 / 2)) (by positivity)
    have hm48 : (m : ℚ) ≤ 2 ^ 49 := by linarith
    have h1 : (3 * m : ℚ) - 1 < 2 * n := by linarith
    have h2 : 3 * m < 2 * n + 1 := by
      have : (3 * m : ℚ) < 2 * n + 1 := by linarith
      exact_mod_cast this
    have h3 : 3 * m = 2 * n := by omega
    have h4 : (m : ℚ) * (3 / 2) = n := by
      have : (3 * m : ℚ) = 2 * n := by exact_mod_cast h3
      linarith
    rw [h4, fl_natCast n (by omega)] at hgt
    exact lt_irrefl _ hgt
  have h32q : (3 * m + 1 : ℚ) ≤ 2 * n := by exact_mod_cast h32
  set y := pyDiv n m with hy
  have hxnn : (0 : ℚ) ≤ (n : ℚ) / m := by positivity
  have hylo : (n : ℚ) / m * (1 - 1 / 2 ^ 53) ≤ y := fl_lower _ hxnn
  have hyup : y ≤ (n : ℚ) / m * (1 + 1 / 2 ^ 53) := fl_upper _ hxnn
  have hynn : 0 ≤ y := fl_nonneg _ hxnn
  have hnm : (n : ℚ) / m * m = n := by field_simp
  have hxm : (n : ℚ) / m ≤ n := by
    apply div_le_self (by positivity)
    exact_mod_cast hm
  obtain ⟨hr1, hr2⟩ := roundHalfEven_bounds y
  have hrnn : 0 ≤ roundHalfEven y := by
    have : (-1 : ℚ) < roundHalfEven y := by linarith
    have : (-1 : ℤ) < roundHalfEven y := by exact_mod_cast this
    omega
  -- y * m in terms of n
  have hym : (n : ℚ) - n / 2 ^ 53 ≤ y * m := by
    have := mul_le_mul_of_nonneg_right hylo hmq.le
    have e : (n : ℚ) / m * (1 - 1 / 2 ^ 53) * m = n - n / 2 ^ 53 := by
      field_simp
    linarith
  have hn53 : (n : ℚ) / 2 ^ 53 < 1 / 8 := by
    rw [div_lt_iff₀ (by positivity)]; norm_num; linarith
  -- the key bound
  have hkey : 2 * (n : ℤ) ≤ (2 * roundHalfEven y + 1) * m := by
    by_contra hc
    have hc' : (2 * roundHalfEven y + 1) * (m : ℤ) + 1 ≤ 2 * (n : ℤ) := by omega
    have hcq : (2 * (roundHalfEven y : ℚ) + 1) * m + 1 ≤ 2 * n := by exact_mod_cast hc'
    have : y * m ≤ ((roundHalfEven y : ℚ) + 1 / 2) * m := mul_le_mul_of_nonneg_right hr2 hmq.le
    linarith
  have hge2 : 2 ≤ roundHalfEven y := by
    by_contra hc
    have h1 : roundHalfEven y ≤ 1 := by omega
    have : (2 * roundHalfEven y + 1) * (m : ℤ) ≤ 3 * m := by nlinarith
    omega
  have hk : sliceCount n m = (roundHalfEven y).toNat := by
    unfold sliceCount
    rw [← hy]
    omega
  refine ⟨h32, by omega, ?_, ?_⟩
  · have h1 : (roundHalfEven y : ℚ) < n + 1 := by
      have : (n : ℚ) / m * (1 + 1 / 2 ^ 53) ≤ n * (1 + 1 / 2 ^ 53) :=
        mul_le_mul_of_nonneg_right hxm (by norm_num)
      have e : (n : ℚ) * (1 + 1 / 2 ^ 53) = n + n / 2 ^ 53 := by ring
      linarith
    have h2 : roundHalfEven y < (n : ℤ) + 1 := by exact_mod_cast h1
    omega
  · have e : ((sliceCount n m : ℕ) : ℤ) = roundHalfEven y := by omega
    have : 2 * (n : ℤ) ≤ (2 * ((sliceCount n m : ℕ) : ℤ) + 1) * m := by rw [e]; exact hkey
    exact_mod_cast this

/-- The float `i * samples_per_sequence`. -/
def offF (n k i : ℕ) : ℚ := pyMul i (pyDiv n k)

/-- The integer offset. -/
def off (n k i : ℕ) : ℕ := pyInt (offF n k i)

theorem pyDiv_bounds (n k : ℕ) :
    (n : ℚ) / k * (1 - 1 / 2 ^ 53) ≤ pyDiv n k ∧ pyDiv n k ≤ (n : ℚ) / k * (1 + 1 / 2 ^ 53) ∧
      0 ≤ pyDiv n k := by
  have h : (0 : ℚ) ≤ (n : ℚ) / k := by positivity
  exact ⟨fl_lower _ h, fl_upper _ h, fl_nonneg _ h⟩

theorem offF_nonneg (n k i : ℕ) : 0 ≤ offF n k i := by
  unfold offF pyMul
  exact fl_nonneg _ (mul_nonneg (by positivity) (pyDiv_bounds n k).2.2)

theorem offF_bounds (n k i : ℕ) :
    (i : ℚ) * pyDiv n k * (1 - 1 / 2 ^ 53) ≤ offF n k i ∧
      offF n k i ≤ (i : ℚ) * pyDiv n k * (1 + 1 / 2 ^ 53) := by
  have h : (0 : ℚ) ≤ (i : ℚ) * pyDiv n k := mul_nonneg (by positivity) (pyDiv_bounds n k).2.2
  exact ⟨fl_lower _ h, fl_upper _ h⟩

theorem off_mono (n k i : ℕ) (hi : i ≤ 2 ^ 50) : off n k i ≤ off n k (i + 1) := by
  unfold off pyInt
  apply Nat.floor_le_floor
  have h1 := (offF_bounds n k i).2
  have h2 := (offF_bounds n k (i + 1)).1
  have hp := (pyDiv_bounds n k).2.2
  refine h1.trans (le_trans ?_ h2)
  have hiq : (i : ℚ) ≤ 2 ^ 50 := by exact_mod_cast hi
  push_cast
  have e : ((i : ℚ) + 1) * pyDiv n k * (1 - 1 / 2 ^ 53) - (i : ℚ) * pyDiv n k * (1 + 1 / 2 ^ 53)
      = pyDiv n k * (1 - (2 * i + 1) / 2 ^ 53) := by ring
  have : 0 ≤ pyDiv n k * (1 - (2 * i + 1) / 2 ^ 53) := by
    apply mul_nonneg hp
    rw [sub_nonneg, div_le_one (by positivity)]
    linarith
  linarith

theorem off_zero (n k : ℕ) : off n k 0 = 0 := by
  simp [off, offF, pyMul, fl_zero, pyInt]

theorem off_last (n k : ℕ) (hk : 0 < k) (hn : n ≤ 2 ^ 48) :
    off n k k ≤ n ∧ n ≤ off n k k + 1 := by
  obtain ⟨p1, p2, p3⟩ := pyDiv_bounds n k
  obtain ⟨o1, o2⟩ := offF_bounds n k k
  have hkq : (0 : ℚ) < k := by exact_mod_cast hk
  have hnq : (n : ℚ) ≤ 2 ^ 48 := by exact_mod_cast hn
  have hn0 : (0 : ℚ) ≤ n := by positivity
  have e1 : (k : ℚ) * ((n : ℚ) / k * (1 - 1 / 2 ^ 53)) = n * (1 - 1 / 2 ^ 53) := by field_simp
  have e2 : (k : ℚ) * ((n : ℚ) / k * (1 + 1 / 2 ^ 53)) = n * (1 + 1 / 2 ^ 53) := by field_simp
  have q1 := mul_le_mul_of_nonneg_left p1 hkq.le
  have q2 := mul_le_mul_of_nonneg_left p2 hkq.le
  rw [e1] at q1
  rw [e2] at q2
  have r1 := mul_le_mul_of_nonneg_right q1 (by norm_num : (0 : ℚ) ≤ 1 - 1 / 2 ^ 53)
  have r2 := mul_le_mul_of_nonneg_right q2 (by norm_num : (0 : ℚ) ≤ 1 + 1 / 2 ^ 53)
  unfold off pyInt
  constructor
  · have : offF n k k < (n + 1 : ℕ) := by
      push_cast
      linarith
    have := (Nat.floor_lt (offF_nonneg n k k)).mpr this
    omega
  · rcases Nat.eq_zero_or_pos n with rfl | hpos
    · omega
    · have : ((n - 1 : ℕ) : ℚ) ≤ offF n k k := by
        rw [Nat.cast_sub hpos]
        push_cast
        linarith
      have := Nat.le_floor this
      omega

/-- If the number of slices divides the number of samples the arithmetic is exact. -/
theorem off_last_of_dvd (n k : ℕ) (hk : 0 < k) (hn : n ≤ 2 ^ 48) (hd : k ∣ n) : off n k k = n := by
  obtain ⟨q, rfl⟩ := hd
  have hkq : (k : ℚ) ≠ 0 := by exact_mod_cast hk.ne'
  have hq : q ≤ k * q := Nat.le_mul_of_pos_left q hk
  have h1 : pyDiv (k * q) k = q := by
    unfold pyDiv
    have : ((k * q : ℕ) : ℚ) / k = (q : ℕ) := by push_cast; field_simp
    rw [this, fl_natCast q (by omega)]
  have h2 : offF (k * q) k k = (k * q : ℕ) := by
    unfold offF pyMul
    rw [h1]
    have : (k : ℚ) * q = ((k * q : ℕ) : ℚ) := by push_cast; ring
    rw [this, fl_natCast _ (by omega)]
  unfold off pyInt
  rw [h2, Nat.floor_natCast]

theorem splitShard_eq (s : Subshards) (a b m : ℕ)
    (hgt : ((b - a : ℕ) : ℚ) > fl ((m : ℚ) * (3 / 2))) :
    splitShard s a b (some m) =
      (List.range (sliceCount (b - a) m)).map fun i =>
        s.slice (a + off (b - a) (sliceCount (b - a) m) i)
          (off (b - a) (sliceCount (b - a) m) (i + 1) - off (b - a) (sliceCount (b - a) m) i) := by
  unfold splitShard
  simp only [if_pos hgt]
  refine List.map_congr_left fun i hi => ?_
  simp only [List.mem_range] at hi
  have g : ∀ j, j ≤ sliceCount (b - a) m →
      ((sliceOffsets (b - a) (sliceCount (b - a) m)).map (a + ·)).getD j 0
        = a + off (b - a) (sliceCount (b - a) m) j := by
    intro j hj
    simp [sliceOffsets, List.getD_eq_getElem?_getD, List.getElem?_map,
      List.getElem?_range (show j < sliceCount (b - a) m + 1 by omega), off, offF]
  rw [g i (by omega), g (i + 1) (by omega)]
  congr 1
  omega

theorem samplesOf_slices (s : Subshards) (a : ℕ) (f : ℕ → ℕ) (k : ℕ) (h0 : f 0 = 0)
    (hm : ∀ i < k, f i ≤ f (i + 1)) :
    samplesOf ((List.range k).map fun i => s.slice (a + f i) (f (i + 1) - f i)) = cells s a (f k) := by
  induction k with
  | zero => simp [samplesOf, h0, cells]
  | succ k ih =>
    rw [List.range_succ, List.map_append, samplesOf_append, ih (fun i hi => hm i (by omega))]
    have e : f (k + 1) = f k + (f (k + 1) - f k) := by have := hm k (by omega); omega
    conv_rhs => rw [e, cells_add]
    simp [samplesOf, samples_slice]

/-- The samples read after splitting: a prefix of the range, at most the last sample missing. -/
theorem samplesOf_splitShard (s : Subshards) (a b m : ℕ) (hm : 0 < m) (hb : b - a ≤ 2 ^ 48) :
    ∃ c, samplesOf (splitShard s a b (some m)) = cells s a c ∧ c ≤ b - a ∧ b - a ≤ c + 1 ∧
      (c = b - a ∨
        (((b - a : ℕ) : ℚ) > fl ((m : ℚ) * (3 / 2)) ∧ c = off (b - a) (sliceCount (b - a) m) (sliceCount (b - a) m))) := by
  by_cases hgt : ((b - a : ℕ) : ℚ) > fl ((m : ℚ) * (3 / 2))
  · obtain ⟨h1, h2, h3, h4⟩ := sliceCount_spec _ m hm hb hgt
    refine ⟨off (b - a) (sliceCount (b - a) m) (sliceCount (b - a) m), ?_, ?_, ?_, Or.inr ⟨hgt, rfl⟩⟩
    · rw [splitShard_eq s a b m hgt]
      exact samplesOf_slices s a (off (b - a) (sliceCount (b - a) m)) _ (off_zero _ _)
        (fun i hi => off_mono _ _ _ (by omega))
    · exact (off_last _ _ (by omega) hb).1
    · exact (off_last _ _ (by omega) hb).2
  · refine ⟨b - a, ?_, le_rfl, by omega, Or.inl rfl⟩
    unfold splitShard
    simp only [if_neg hgt]
    simp [samplesOf, samples_slice]

theorem covers_sublist (m : ℕ) (hm : 0 < m) (bound : ℕ) (hb : bound ≤ 2 ^ 48) :
    Covers (some m) List.Sublist bound where
  refl _ := List.Sublist.refl _
  app _ _ _ _ h1 h2 := h1.append h2
  split s a b _ hbb := by
    obtain ⟨c, h1, h2, _, _⟩ := samplesOf_splitShard s a b m hm (by omega)
    rw [h1]
    obtain ⟨d, hd⟩ := Nat.exists_eq_add_of_le h2
    rw [hd, cells_add]
    exact List.sublist_append_left _ _

/-- Slice lengths. -/
theorem splitShard_bound (s : Subshards) (a b m : ℕ) (hm : 0 < m) (hb : b - a ≤ 2 ^ 48) :
    ∀ x ∈ splitShard s a b (some m), 2 * x.head.count ≤ 3 * m := by
  intro x hx
  by_cases hgt : ((b - a : ℕ) : ℚ) > fl ((m : ℚ) * (3 / 2))
  · obtain ⟨h1, h2, h3, h4⟩ := sliceCount_spec _ m hm hb hgt
    rw [splitShard_eq s a b m hgt] at hx
    simp only [List.mem_map, List.mem_range] at hx
    obtain ⟨i, hi, rfl⟩ := hx
    set n := b - a
    set k := sliceCount n m with hk
    have hcount : (s.slice (a + off n k i) (off n k (i + 1) - off n k i)).head.count
        = off n k (i + 1) - off n k i := rfl
    rw [hcount]
    have hkq : (0 : ℚ) < k := by exact_mod_cast (by omega : 0 < k)
    have hk2 : (2 : ℚ) ≤ k := by exact_mod_cast h2
    have hmq : (0 : ℚ) < m := by exact_mod_cast hm
    have hnq : (n : ℚ) ≤ 2 ^ 48 := by exact_mod_cast hb
    have hik : (i : ℚ) + 1 ≤ k := by exact_mod_cast hi
    have hi0 : (0 : ℚ) ≤ i := by positivity
    have hn0 : (0 : ℚ) ≤ n := by positivity
    have h4q : (2 * n : ℚ) ≤ (2 * k + 1) * m := by exact_mod_cast h4
    obtain ⟨p1, p2, p3⟩ := pyDiv_bounds n k
    set per := pyDiv n k with hper
    -- k * per ≤ n (1 + u)
    have hkp : (k : ℚ) * per ≤ n * (1 + 1 / 2 ^ 53) := by
      have := mul_le_mul_of_nonneg_left p2 hkq.le
      have e2 : (k : ℚ) * ((n : ℚ) / k * (1 + 1 / 2 ^ 53)) = n * (1 + 1 / 2 ^ 53) := by field_simp
      linarith
    have hnk : (n : ℚ) / k ≤ 5 / 4 * m := by
      rw [div_le_iff₀ hkq]
      nlinarith
    have hnk1 : (n : ℚ) / k ≤ 2 ^ 48 := (div_le_self hn0 (by linarith)).trans hnq
    have hper2 : per ≤ 5 / 4 * m + 1 / 32 := by
      have e : (n : ℚ) / k * (1 + 1 / 2 ^ 53) = n / k + n / k / 2 ^ 53 := by ring
      have : (n : ℚ) / k / 2 ^ 53 ≤ 1 / 32 := by
        rw [div_le_iff₀ (by positivity)]; linarith
      linarith
    have hipl : (i : ℚ) * per ≤ 2 ^ 49 := by
      have : (i : ℚ) * per ≤ k * per := mul_le_mul_of_nonneg_right (by linarith) p3
      linarith
    have hkpl : ((i : ℚ) + 1) * per ≤ 2 ^ 49 := by
      have : ((i : ℚ) + 1) * per ≤ k * per := mul_le_mul_of_nonneg_right hik p3
      linarith
    have o1 := (offF_bounds n k i).1
    have o2 := (offF_bounds n k (i + 1)).2
    rw [← hper] at o1 o2
    push_cast at o2
    have hdiff : offF n k (i + 1) - offF n k i ≤ per + 1 / 8 := by
      have e : ((i : ℚ) + 1) * per * (1 + 1 / 2 ^ 53) - (i : ℚ) * per * (1 - 1 / 2 ^ 53)
          = per + (((i : ℚ) + 1) * per + (i : ℚ) * per) / 2 ^ 53 := by ring
      have : (((i : ℚ) + 1) * per + (i : ℚ) * per) / 2 ^ 53 ≤ 1 / 8 := by
        rw [div_le_iff₀ (by positivity)]; linarith
      linarith
    have f1 : (off n k (i + 1) : ℚ) ≤ offF n k (i + 1) := Nat.floor_le (offF_nonneg _ _ _)
    have f2 : offF n k i < (off n k i : ℚ) + 1 := Nat.lt_floor_add_one _
    have hlt : (off n k (i + 1) : ℚ) < off n k i + (5 / 4 * m + 1 / 32 + 1 / 8 + 1) := by linarith
    rcases Nat.lt_or_ge m 2 with hm2 | hm2
    · -- m = 1: exact
      have hm1 : m = 1 := by omega
      subst hm1
      have hkn : k = n := by
        rw [hk]
        unfold sliceCount pyDiv
        have : (n : ℚ) / (1 : ℕ) = (n : ℕ) := by push_cast; simp
        rw [this, fl_natCast n (by omega)]
        have := roundHalfEven_int (n : ℤ)
        push_cast at this
        rw [this]
        omega
      have hper1 : per = 1 := by
        rw [hper, hkn]
        unfold pyDiv
        have hne : (n : ℚ) ≠ 0 := by
          have : 0 < n := by omega
          exact_mod_cast this.ne'
        have : (n : ℚ) / n = (1 : ℕ) := by push_cast; field_simp
        rw [this, fl_natCast 1 (by omega)]
        norm_num
      have hoff : ∀ j, j ≤ n → off n k j = j := by
        intro j hj
        unfold off offF pyMul pyInt
        rw [← hper, hper1, mul_one, fl_natCast j (by omega)]
        simp
      rw [hoff (i + 1) (by omega), hoff i (by omega)]
      omega
    · have hlt2 : (32 * off n k (i + 1) : ℚ) < 32 * off n k i + (40 * m + 37) := by linarith
      have hlt3 : 32 * off n k (i + 1) < 32 * off n k i + (40 * m + 37) := by exact_mod_cast hlt2
      have := off_mono n k i (by omega)
      by_cases hmm : m = 2
      · rw [hmm] at hlt3 ⊢; omega
      · omega
  · unfold splitShard at hx
    simp only [if_neg hgt, List.mem_singleton] at hx
    subst hx
    have hc : (s.slice a (b - a)).head.count = b - a := rfl
    rw [hc]
    have hle : ((b - a : ℕ) : ℚ) ≤ fl ((m : ℚ) * (3 / 2)) := not_lt.mp hgt
    have hup := fl_upper ((m : ℚ) * (3 / 2)) (by positivity)
    rcases Nat.lt_or_ge (2 ^ 48) m with h | h
    · omega
    · have hmq : (m : ℚ) ≤ 2 ^ 48 := by exact_mod_cast h
      have : (2 * (b - a : ℕ) : ℚ) < 3 * m + 1 := by
        linarith
      have : 2 * (b - a) < 3 * m + 1 := by exact_mod_cast this
      omega

/-- Membership of slices in the result of `splitShards` comes from `splitShard`. -/
theorem part_mem (shards : List Subshards) (m a b : ℕ) (hb : b ≤ total shards)
    (p : List Subshards)
    (h : part shards (some m) a b = .ok p) :
    ∀ x ∈ p, ∃ s c d, d ≤ total shards ∧ x ∈ splitShard s c d (some m) := by
  unfold part splitShards at h
  cases hfa : findShard a 0 shards with
  | none => simp [hfa, Except.map] at h
  | some y =>
    obtain ⟨sk, cum, cur, rest⟩ := y
    obtain ⟨e1, _, _, _⟩ := findShard_some hfa
    simp only [hfa, splitLoop] at h
    cases hfb : findShard b cum (cur :: rest) with
    | none => simp [hfb, Except.map] at h
    | some z =>
      obtain ⟨sk2, cum2, found, rest2⟩ := z
      obtain ⟨g1, _, g3, _⟩ := findShard_some hfb
      simp only [hfb, Except.map, List.headD_cons, Except.ok.injEq] at h
      subst h
      intro x hx
      cases sk2 with
      | nil => exact ⟨_, _, _, by omega, hx⟩
      | cons first middle =>
        simp only [List.mem_append, List.mem_flatMap] at hx
        simp only [List.cons_append, List.cons.injEq] at g1
        obtain ⟨rfl, g1⟩ := g1
        have hin : ∀ s ∈ cur :: rest, s.head.count ≤ total shards := fun s hs =>
          count_le_total (by rw [e1]; exact List.mem_append_right _ hs)
        rcases hx with (hx | ⟨s, hs, hx⟩) | hx
        · split_ifs at hx with hc
          · exact ⟨_, _, _, hin _ (by simp), hx⟩
          · simp at hx
        · exact ⟨_, _, _, hin s (by rw [g1]; simp [hs]), hx⟩
        · exact ⟨_, _, _, by omega, hx⟩

end Verif.Sharder
