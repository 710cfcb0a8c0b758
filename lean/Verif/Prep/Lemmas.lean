import Verif.Float.Mono
import Verif.Prep.Model
import Mathlib.Tactic.GCongr

/-!
Helper lemmas: dicts, the ends of the parts, rounding errors of the cumulated ratio.
-/

namespace Verif.Prep

open Verif.Float

/-! ## Dicts -/

theorem Dict.set_new {α : Type} (d : Dict α) (k : String) (v : α) (h : k ∉ d.map Prod.fst) :
    d.set k v = d ++ [(k, v)] := by
  induction d with
  | nil => rfl
  | cons e d ih =>
    obtain ⟨k', v'⟩ := e
    simp only [List.map_cons, List.mem_cons, not_or] at h
    simp only [Dict.set, if_neg (Ne.symm h.1), ih h.2, List.cons_append]

theorem Dict.get_set {α : Type} (d : Dict α) (k k' : String) (v : α) :
    (d.set k v).get k' = if k = k' then some v else d.get k' := by
  induction d with
  | nil => simp only [Dict.set, Dict.get]
  | cons e d ih =>
    obtain ⟨k₀, v₀⟩ := e
    simp only [Dict.set]
    by_cases h : k₀ = k
    · subst h
      simp only [if_true, Dict.get]
      by_cases h' : k₀ = k' <;> simp [h']
    · simp only [if_neg h, Dict.get, ih]
      by_cases h' : k₀ = k'
      · subst h'
        simp [Ne.symm h]
      · simp [h']

/-! ## The ends of the parts -/

theorem slice_append {α : Type} (l : List α) {a b c : ℕ} (h1 : a ≤ b) (h2 : b ≤ c) :
    slice l a b ++ slice l b c = slice l a c := by
  unfold slice
  apply List.ext_getElem?
  intro i
  rw [List.getElem?_append]
  simp only [List.length_drop, List.length_take, List.getElem?_drop, List.getElem?_take]
  by_cases h : i < min b l.length - a
  · simp only [h, if_true]
    have : a + i < b := by omega
    have : a + i < c := by omega
    simp [*]
  · simp only [h, if_false]
    by_cases hl : b ≤ l.length
    · rw [show b + (i - (min b l.length - a)) = a + i by omega]
    · rw [List.getElem?_eq_none (by omega : l.length ≤ a + i),
        List.getElem?_eq_none (by omega : l.length ≤ b + (i - (min b l.length - a)))]
      simp

/-- Cumulated ratio after all parts -/
def total (qs : List (String × ℚ)) (t : ℚ) : ℚ := qs.foldl (fun t q => fl (t + q.2)) t

/-- The last end -/
def lastEnd (n : ℕ) : List (String × ℚ) → ℚ → ℕ → ℕ
  | [], _, off => off
  | (_, q) :: qs, t, _ => lastEnd n qs (fl (t + q)) (pyInt (pyMul n (fl (t + q))))

theorem lastEnd_eq (n : ℕ) (qs : List (String × ℚ)) (t : ℚ) (off : ℕ) (h : off = pyInt (pyMul n t)) :
    lastEnd n qs t off = pyInt (pyMul n (total qs t)) := by
  induction qs generalizing t off with
  | nil => simpa [lastEnd, total] using h
  | cons q qs ih =>
    simp only [lastEnd, total, List.foldl_cons]
    exact ih _ _ rfl

theorem end_mono (n : ℕ) {s t : ℚ} (h : s ≤ t) : pyInt (pyMul n s) ≤ pyInt (pyMul n t) := by
  unfold pyInt pyMul
  apply Nat.floor_le_floor
  apply fl_mono
  exact mul_le_mul_of_nonneg_left h (by positivity)

theorem lastEnd_ge (n : ℕ) (qs : List (String × ℚ)) (hq : ∀ q ∈ qs, 0 ≤ q.2) (t : ℚ) (ht : fl t = t) (off : ℕ)
    (h : off ≤ pyInt (pyMul n t)) : off ≤ lastEnd n qs t off := by
  induction qs generalizing t off with
  | nil => exact le_refl _
  | cons q qs ih =>
    obtain ⟨part, q⟩ := q
    simp only [lastEnd]
    have hq' : 0 ≤ q := hq (part, q) (by simp)
    have h1 : off ≤ pyInt (pyMul n (fl (t + q))) := le_trans h (end_mono n (fl_add_ge ht hq'))
    exact le_trans h1 (ih (fun q' hq' => hq q' (by simp [hq'])) _ (fl_fl _) _ (le_refl _))

theorem splitLoop_flat (shards : List Shard) (qs : List (String × ℚ)) (hq : ∀ q ∈ qs, 0 ≤ q.2) (t : ℚ) (ht : fl t = t)
    (off : ℕ) (h : off ≤ pyInt (pyMul shards.length t)) (d : Dict (List String))
    (hn : (d.map Prod.fst ++ qs.map Prod.fst).Nodup) :
    (splitLoop shards qs t off d).map Prod.fst = d.map Prod.fst ++ qs.map Prod.fst ∧
    (splitLoop shards qs t off d).flatMap Prod.snd =
      d.flatMap Prod.snd ++ (slice shards off (lastEnd shards.length qs t off)).map Shard.name := by
  induction qs generalizing t off d with
  | nil =>
    refine ⟨by simp [splitLoop], ?_⟩
    simp only [splitLoop, lastEnd, slice, List.drop_eq_nil_iff.2 (List.length_take_le _ _)]
    simp
  | cons q qs ih =>
    obtain ⟨part, q⟩ := q
    have hq' : 0 ≤ q := hq (part, q) (by simp)
    have hnew : part ∉ d.map Prod.fst := by
      intro hm
      have := (List.nodup_append.1 hn).2.2 part hm part (by simp)
      exact this rfl
    simp only [splitLoop, Dict.set_new _ _ _ hnew]
    have hstep := end_mono shards.length (fl_add_ge ht hq')
    obtain ⟨h1, h2⟩ := ih (fun q' hq' => hq q' (by simp [hq'])) (fl (t + q)) (fl_fl _) _ (le_refl _)
      (d ++ [(part, (slice shards off (pyInt (pyMul shards.length (fl (t + q))))).map Shard.name)])
      (by simpa [List.append_assoc] using hn)
    refine ⟨by rw [h1]; simp, ?_⟩
    rw [h2]
    simp only [List.flatMap_append, List.flatMap_cons, List.flatMap_nil, List.append_nil, List.append_assoc, lastEnd]
    rw [← List.map_append, slice_append _ (le_trans h hstep)
      (lastEnd_ge _ _ (fun q' hq' => hq q' (by simp [hq'])) _ (fl_fl _) _ (le_refl _))]

theorem pyEnd_zero (n : ℕ) : pyInt (pyMul n 0) = 0 := by simp [pyInt, pyMul, fl_zero]

theorem pySum_nonneg (rs : List ℚ) (a : ℚ) (ha : 0 ≤ a) (h : ∀ r ∈ rs, 0 ≤ r) : 0 ≤ rs.foldl (fun a r => fl (a + r)) a := by
  induction rs generalizing a with
  | nil => exact ha
  | cons r rs ih =>
    simp only [List.foldl_cons]
    exact ih _ (fl_nonneg _ (add_nonneg ha (h r (by simp)))) (fun r' hr' => h r' (by simp [hr']))

theorem normalize_nonneg {T : ℚ} (hT : 0 ≤ T) {rs : List (String × ℚ)} (h : ∀ r ∈ rs, 0 ≤ r.2) :
    ∀ q ∈ normalize T rs, 0 ≤ q.2 := by
  intro q hq
  simp only [normalize, List.mem_map] at hq
  obtain ⟨r, hr, rfl⟩ := hq
  exact fl_nonneg _ (div_nonneg (h r hr) hT)

theorem normalize_names (T : ℚ) (rs : List (String × ℚ)) : (normalize T rs).map Prod.fst = rs.map Prod.fst := by
  simp [normalize]

/-- The shards in the parts are the first shards, up to the last end. -/
theorem splitRatio_flat {shards : List Shard} {rs : List (String × ℚ)} {d : Dict (List String)}
    (hr : ∀ r ∈ rs, 0 ≤ r.2) (hn : (rs.map Prod.fst).Nodup) (hd : splitRatio shards rs = some d) :
    d.map Prod.fst = rs.map Prod.fst ∧
    d.flatMap Prod.snd = (shards.map Shard.name).take
      (pyInt (pyMul shards.length (total (normalize (pySum (rs.map Prod.snd)) rs) 0))) := by
  unfold splitRatio at hd
  simp only at hd
  split at hd
  · cases hd
  · injection hd with hd
    subst hd
    have hT : 0 ≤ pySum (rs.map Prod.snd) := by
      apply pySum_nonneg _ _ (le_refl _)
      intro r hr'
      obtain ⟨x, hx, rfl⟩ := List.mem_map.1 hr'
      exact hr x hx
    obtain ⟨h1, h2⟩ := splitLoop_flat shards (normalize (pySum (rs.map Prod.snd)) rs)
      (normalize_nonneg hT hr) 0 fl_zero 0 (Nat.zero_le _) [] (by simpa [normalize_names] using hn)
    refine ⟨by simpa [normalize_names] using h1, ?_⟩
    rw [h2, lastEnd_eq _ _ _ _ (pyEnd_zero _).symm]
    simp [slice, List.map_take]

/-! ## How many shards are lost -/

/-- relative error of one rounding -/
def u : ℚ := 1 / 2 ^ 53

theorem u_pos : 0 < u := by unfold u; positivity
theorem u_lt : u < 1 := by unfold u; norm_num

theorem fl_lo (x : ℚ) (hx : 0 ≤ x) : x * (1 - u) ≤ fl x := fl_lower x hx
theorem fl_hi (x : ℚ) (hx : 0 ≤ x) : fl x ≤ x * (1 + u) := fl_upper x hx

theorem pySum_upper (rs : List ℚ) (a : ℚ) (ha : 0 ≤ a) (h : ∀ r ∈ rs, 0 ≤ r) :
    rs.foldl (fun a r => fl (a + r)) a ≤ (a + rs.sum) * (1 + u) ^ rs.length := by
  induction rs generalizing a with
  | nil => simp
  | cons r rs ih =>
    simp only [List.foldl_cons, List.sum_cons, List.length_cons]
    have hr : 0 ≤ r := h r (by simp)
    have hs : 0 ≤ rs.sum := List.sum_nonneg (fun x hx => h x (by simp [hx]))
    have hu := u_pos
    have h1 := fl_hi (a + r) (by linarith)
    calc _ ≤ (fl (a + r) + rs.sum) * (1 + u) ^ rs.length :=
          ih _ (fl_nonneg _ (by linarith)) (fun r' hr' => h r' (by simp [hr']))
      _ ≤ ((a + r) * (1 + u) + rs.sum * (1 + u)) * (1 + u) ^ rs.length := by
          apply mul_le_mul_of_nonneg_right _ (by positivity)
          nlinarith
      _ = (a + (r + rs.sum)) * (1 + u) ^ (rs.length + 1) := by ring

theorem total_lower (qs : List (String × ℚ)) (t : ℚ) (ht : 0 ≤ t) (h : ∀ q ∈ qs, 0 ≤ q.2) :
    (t + (qs.map Prod.snd).sum) * (1 - u) ^ qs.length ≤ total qs t := by
  induction qs generalizing t with
  | nil => simp [total]
  | cons q qs ih =>
    simp only [total, List.foldl_cons, List.map_cons, List.sum_cons, List.length_cons] at ih ⊢
    have hq : 0 ≤ q.2 := h q (by simp)
    have hs : 0 ≤ (qs.map Prod.snd).sum := by
      apply List.sum_nonneg
      intro x hx
      obtain ⟨y, hy, rfl⟩ := List.mem_map.1 hx
      exact h y (by simp [hy])
    have hu := u_pos
    have hu' : 0 ≤ 1 - u := by have := u_lt; linarith
    have h1 := fl_lo (t + q.2) (by linarith)
    calc _ = ((t + q.2) * (1 - u) + (qs.map Prod.snd).sum * (1 - u)) * (1 - u) ^ qs.length := by ring
      _ ≤ (fl (t + q.2) + (qs.map Prod.snd).sum) * (1 - u) ^ qs.length := by
          apply mul_le_mul_of_nonneg_right _ (by positivity)
          nlinarith
      _ ≤ _ := ih _ (fl_nonneg _ (by linarith)) (fun r' hr' => h r' (by simp [hr']))

theorem normalize_lower (T : ℚ) (hT : 0 < T) (rs : List (String × ℚ)) (h : ∀ r ∈ rs, 0 ≤ r.2) :
    (rs.map Prod.snd).sum / T * (1 - u) ≤ ((normalize T rs).map Prod.snd).sum := by
  induction rs with
  | nil => simp [normalize]
  | cons r rs ih =>
    simp only [normalize, List.map_cons, List.sum_cons] at ih ⊢
    have h1 := fl_lo (r.2 / T) (div_nonneg (h r (by simp)) hT.le)
    have h2 := ih (fun r' hr' => h r' (by simp [hr']))
    rw [add_div, add_mul]
    linarith

theorem pow_ge (n : ℕ) : 1 - n * u ≤ (1 - u) ^ n := by
  have h := one_add_mul_le_pow (a := -u) (by have := u_lt; linarith) n
  calc 1 - n * u = 1 + n * -u := by ring
    _ ≤ (1 + -u) ^ n := h
    _ = _ := by ring

/-- The cumulated ratio is close to one. -/
theorem total_ge (rs : List (String × ℚ)) (h : ∀ r ∈ rs, 0 ≤ r.2) (hT : pySum (rs.map Prod.snd) ≠ 0) :
    1 - (2 * rs.length + 1) * u ≤ total (normalize (pySum (rs.map Prod.snd)) rs) 0 := by
  have hr : ∀ r ∈ rs.map Prod.snd, 0 ≤ r := by
    intro r hr'
    obtain ⟨x, hx, rfl⟩ := List.mem_map.1 hr'
    exact h x hx
  have hT0 : 0 ≤ pySum (rs.map Prod.snd) := pySum_nonneg _ _ (le_refl _) hr
  have hTpos : 0 < pySum (rs.map Prod.snd) := lt_of_le_of_ne hT0 (Ne.symm hT)
  have hup := pySum_upper (rs.map Prod.snd) 0 (le_refl _) hr
  rw [zero_add, List.length_map] at hup
  have hlo := total_lower (normalize (pySum (rs.map Prod.snd)) rs) 0 (le_refl _) (normalize_nonneg hT0 h)
  rw [zero_add, show (normalize (pySum (rs.map Prod.snd)) rs).length = rs.length by simp [normalize]] at hlo
  have hnorm := normalize_lower _ hTpos rs h
  change pySum (rs.map Prod.snd) ≤ _ at hup
  generalize pySum (rs.map Prod.snd) = T at *
  generalize (rs.map Prod.snd).sum = S at *
  generalize hn : rs.length = n at *
  have hu := u_pos
  have hu' : 0 ≤ 1 - u := by have := u_lt; linarith
  have hS : 0 < S := by
    by_contra hc
    have : S * (1 + u) ^ n ≤ 0 := mul_nonpos_of_nonpos_of_nonneg (by linarith) (by positivity)
    linarith
  -- S / T ≥ (1 - u)^n
  have h1 : (1 - u) ^ n ≤ S / T := by
    rw [le_div_iff₀ hTpos]
    calc (1 - u) ^ n * T ≤ (1 - u) ^ n * (S * (1 + u) ^ n) := mul_le_mul_of_nonneg_left hup (by positivity)
      _ = S * (1 - u ^ 2) ^ n := by
          rw [show (1 - u ^ 2) = (1 - u) * (1 + u) by ring, mul_pow]; ring
      _ ≤ S * 1 := by
          apply mul_le_mul_of_nonneg_left _ hS.le
          apply pow_le_one₀
          · have : u ^ 2 ≤ 1 := pow_le_one₀ hu.le u_lt.le
            linarith
          · have : 0 ≤ u ^ 2 := by positivity
            linarith
      _ = S := by ring
  calc 1 - (2 * n + 1) * u = 1 - ((2 * n + 1 : ℕ) : ℚ) * u := by push_cast; ring
    _ ≤ (1 - u) ^ (2 * n + 1) := pow_ge _
    _ = ((1 - u) ^ n * (1 - u)) * (1 - u) ^ n := by ring
    _ ≤ (S / T * (1 - u)) * (1 - u) ^ n := by gcongr
    _ ≤ _ * (1 - u) ^ n := mul_le_mul_of_nonneg_right hnorm (by positivity)
    _ ≤ _ := hlo

theorem end_ge (n k : ℕ) (s : ℚ) (hk : n * (k + 1) < 2 ^ 53) (h : 1 - k * u ≤ s) : n ≤ pyInt (pyMul n s) + 1 := by
  have hu := u_pos
  by_cases hn : n = 0
  · omega
  have hk' : (n : ℚ) * (k + 1) * u < 1 := by
    have : ((n * (k + 1) : ℕ) : ℚ) < ((2 ^ 53 : ℕ) : ℚ) := by exact_mod_cast hk
    push_cast at this
    unfold u
    rw [mul_one_div, div_lt_one (by positivity)]
    exact this
  have hn1 : (1 : ℚ) ≤ n := by
    have : 1 ≤ n := Nat.one_le_iff_ne_zero.2 hn
    exact_mod_cast this
  have hku : (k : ℚ) * u < 1 := by
    have : (0 : ℚ) ≤ k := by positivity
    nlinarith
  have hs : 0 ≤ s := by linarith
  have h1 := fl_lo ((n : ℚ) * s) (by positivity)
  have h2 : (n : ℚ) - 1 < fl (n * s) := by
    have hu1 : 0 < 1 - u := by have := u_lt; linarith
    calc (n : ℚ) - 1 < n * (1 - (k + 1) * u) := by linarith
      _ ≤ n * ((1 - k * u) * (1 - u)) := by
          apply mul_le_mul_of_nonneg_left _ (by positivity)
          have : 0 ≤ (k : ℚ) * u * u := by positivity
          nlinarith
      _ ≤ n * (s * (1 - u)) := by gcongr
      _ = n * s * (1 - u) := by ring
      _ ≤ _ := h1
  unfold pyInt pyMul
  have : n - 1 ≤ ⌊fl (n * s)⌋₊ := by
    apply Nat.le_floor
    rw [Nat.cast_sub (Nat.one_le_iff_ne_zero.2 hn)]
    push_cast
    exact h2.le
  omega

/-! ## Exact cases -/

theorem fl_one : fl 1 = 1 := by
  have := fl_natCast 1 (by norm_num)
  simpa using this

theorem end_full (n : ℕ) (hn : n < 2 ^ 53) (s : ℚ) (h : 1 ≤ s) : n ≤ pyInt (pyMul n s) := by
  unfold pyInt pyMul
  apply Nat.le_floor
  calc (n : ℚ) = fl n := (fl_natCast n hn).symm
    _ ≤ fl (n * s) := fl_mono (le_mul_of_one_le_right (by positivity) h)

/-- `1 - 2^-54` is rounded to `1`. -/
theorem fl_near_one {x : ℚ} (h : 1 - 1 / 2 ^ 54 ≤ x) : 1 ≤ fl x := by
  have h1 : fl (1 - 1 / 2 ^ 54) = 1 := by
    have he : expo (1 - 1 / 2 ^ 54) = -1 := expo_unique (by norm_num) (by norm_num) (by norm_num)
    unfold fl
    rw [if_neg (by norm_num), he]
    have h2 : ((1 - 1 / 2 ^ 54 : ℚ) / (2 : ℚ) ^ (-1 - 52 : ℤ)) = ((2 ^ 53 - 1 : ℤ) : ℚ) + 1 / 2 := by norm_num
    have h3 : roundHalfEven (((2 ^ 53 - 1 : ℤ) : ℚ) + 1 / 2) = 2 ^ 53 := by
      unfold roundHalfEven
      have hf : ⌊(((2 ^ 53 - 1 : ℤ) : ℚ) + 1 / 2)⌋ = 2 ^ 53 - 1 := by
        rw [Int.floor_eq_iff]
        constructor <;> norm_num
      rw [hf]
      norm_num
    simp only
    rw [h2, h3]
    norm_num
  calc (1 : ℚ) = fl (1 - 1 / 2 ^ 54) := h1.symm
    _ ≤ _ := fl_mono h

theorem fl_small_multiple (m : ℕ) (h : m ≤ 2 ^ 53) : fl ((m : ℚ) / 2 ^ 54) = m / 2 ^ 54 := by
  rcases Nat.eq_zero_or_pos m with rfl | hm
  · simp [fl_zero]
  -- scale m to 53 bits
  obtain ⟨k, hk | hk⟩ : ∃ k : ℕ, 2 ^ 52 ≤ m * 2 ^ k ∧ m * 2 ^ k < 2 ^ 53 ∨ (m = 2 ^ 53 ∧ k = 0) := by
    rcases h.lt_or_eq with hlt | heq
    · refine ⟨52 - Nat.log2 m, Or.inl ?_⟩
      have hl1 : 2 ^ Nat.log2 m ≤ m := Nat.log2_self_le (by omega)
      have hl2 : m < 2 ^ (Nat.log2 m + 1) := Nat.lt_log2_self
      have hl3 : Nat.log2 m < 53 := (Nat.pow_lt_pow_iff_right (by norm_num : 1 < 2)).1 (lt_of_le_of_lt hl1 hlt)
      constructor
      · calc 2 ^ 52 = 2 ^ Nat.log2 m * 2 ^ (52 - Nat.log2 m) := by rw [← pow_add]; congr 1; omega
          _ ≤ _ := Nat.mul_le_mul_right _ hl1
      · calc m * 2 ^ (52 - Nat.log2 m) < 2 ^ (Nat.log2 m + 1) * 2 ^ (52 - Nat.log2 m) :=
              Nat.mul_lt_mul_of_pos_right hl2 (by positivity)
          _ = 2 ^ 53 := by rw [← pow_add]; congr 1; omega
    · exact ⟨0, Or.inr ⟨heq, rfl⟩⟩
  · have e : (m : ℚ) / 2 ^ 54 = ((m * 2 ^ k : ℕ) : ℤ) * (2 : ℚ) ^ (-(54 + k : ℤ)) := by
      push_cast
      rw [zpow_neg, zpow_add₀ (by norm_num)]
      field_simp
      norm_num
    rw [e]
    apply fl_scaled
    · exact_mod_cast hk.1
    · exact_mod_cast hk.2
  · obtain ⟨rfl, -⟩ := hk
    have e : ((2 ^ 53 : ℕ) : ℚ) / 2 ^ 54 = ((2 ^ 52 : ℤ) : ℚ) * (2 : ℚ) ^ (-53 : ℤ) := by norm_num
    rw [e]
    exact fl_scaled (le_refl _) (by norm_num)

/-- Two fractions that add up to one do so after rounding. -/
theorem two_fractions {x y : ℚ} (hx : 1 / 2 ≤ x) (hy : 0 ≤ y) (h : x + y = 1) : 1 ≤ fl (fl x + fl y) := by
  apply fl_near_one
  by_cases hle : x ≤ fl x
  · have h1 := fl_lower y hy
    have : y * (1 / 2 ^ 53) ≤ 1 / 2 * (1 / 2 ^ 53) := by
      apply mul_le_mul_of_nonneg_right _ (by positivity)
      linarith
    have : (1 : ℚ) / 2 * (1 / 2 ^ 53) = 1 / 2 ^ 54 := by norm_num
    linarith
  · have hlt : fl x < x := lt_of_not_ge hle
    have hx1 : x < 1 := by
      rcases lt_or_ge x 1 with h1 | h1
      · exact h1
      · have : x = 1 := by linarith
        rw [this, fl_one] at hlt
        exact absurd hlt (lt_irrefl _)
    have he : expo x = -1 := expo_unique (by linarith) (by norm_num; linarith) (by norm_num; exact hx1)
    obtain ⟨m, h1, h2, h3⟩ := fl_digits (show 0 < x by linarith)
    rw [he] at h1
    have herr := fl_err_digits (show 0 < x by linarith)
    rw [he] at herr
    have hm : fl x = (m : ℚ) / 2 ^ 53 := by
      rw [h1]
      norm_num
      ring
    -- the double below y
    obtain ⟨k, hk⟩ : ∃ k : ℕ, (k : ℤ) = 2 ^ 54 - 2 * m - 1 := by
      have hm2 : m < 2 ^ 53 := by
        rcases h3.lt_or_eq with h | h
        · exact h
        · subst h
          have : fl x = 1 := by rw [hm]; norm_num
          linarith
      exact ⟨(2 ^ 54 - 2 * m - 1).toNat, by omega⟩
    have hk' : (k : ℚ) = 2 ^ 54 - 2 * m - 1 := by exact_mod_cast hk
    have hy' : (k : ℚ) / 2 ^ 54 ≤ y := by
      have : |fl x - x| ≤ 1 / 2 ^ 54 := by
        refine le_trans herr ?_
        norm_num
      have h5 := (abs_le.1 this).1
      rw [hk', div_le_iff₀ (by positivity)]
      rw [hm] at h5
      have : y = 1 - x := by linarith
      rw [this]
      have h6 : x ≤ m / 2 ^ 53 + 1 / 2 ^ 54 := by linarith
      have h7 : x * 2 ^ 54 ≤ (m / 2 ^ 53 + 1 / 2 ^ 54) * 2 ^ 54 := mul_le_mul_of_nonneg_right h6 (by positivity)
      have h8 : ((m : ℚ) / 2 ^ 53 + 1 / 2 ^ 54) * 2 ^ 54 = 2 * m + 1 := by ring
      rw [h8] at h7
      linarith
    have h9 := fl_mono hy'
    rw [fl_small_multiple k (by omega)] at h9
    have : (1 : ℚ) - 1 / 2 ^ 54 = m / 2 ^ 53 + k / 2 ^ 54 := by
      rw [hk']
      ring
    rw [this, hm]
    linarith

end Verif.Prep
