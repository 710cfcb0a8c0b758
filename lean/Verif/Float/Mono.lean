import Verif.Float.Lemmas

/-! Rounding to a double is monotone and does not change doubles. -/

namespace Verif.Float

theorem roundHalfEven_mono {x y : ℚ} (h : x ≤ y) : roundHalfEven x ≤ roundHalfEven y := by
  have h1 : (⌊x⌋ : ℚ) ≤ x := Int.floor_le x
  have h2 : x < ⌊x⌋ + 1 := Int.lt_floor_add_one x
  have h3 : (⌊y⌋ : ℚ) ≤ y := Int.floor_le y
  have h4 : y < ⌊y⌋ + 1 := Int.lt_floor_add_one y
  have hf : ⌊x⌋ ≤ ⌊y⌋ := Int.floor_le_floor h
  rcases hf.lt_or_eq with hlt | heq
  · have hx : roundHalfEven x ≤ ⌊x⌋ + 1 := by
      unfold roundHalfEven
      simp only
      split_ifs <;> omega
    have hy : ⌊y⌋ ≤ roundHalfEven y := by
      unfold roundHalfEven
      simp only
      split_ifs <;> omega
    omega
  · unfold roundHalfEven
    simp only
    rw [← heq] at h3 h4 ⊢
    split_ifs <;> first | omega | (exfalso; linarith)

theorem expo_unique {x : ℚ} {k : ℤ} (hx : 0 < x) (h1 : (2 : ℚ) ^ k ≤ x) (h2 : x < (2 : ℚ) ^ (k + 1)) : expo x = k := by
  obtain ⟨h3, h4⟩ := expo_spec x hx
  have a1 : (2 : ℚ) ^ k < 2 ^ (expo x + 1) := lt_of_le_of_lt h1 h4
  have a2 : (2 : ℚ) ^ (expo x) < 2 ^ (k + 1) := lt_of_le_of_lt h3 h2
  rw [zpow_lt_zpow_iff_right₀ (by norm_num)] at a1 a2
  omega

/-- The digits of a rounded number -/
theorem fl_digits {x : ℚ} (hx : 0 < x) :
    ∃ m : ℤ, fl x = m * (2 : ℚ) ^ (expo x - 52) ∧ 2 ^ 52 ≤ m ∧ m ≤ 2 ^ 53 := by
  obtain ⟨h1, h2⟩ := expo_spec x hx
  have hp : (0 : ℚ) < (2 : ℚ) ^ (expo x - 52) := by positivity
  refine ⟨roundHalfEven (x / (2 : ℚ) ^ (expo x - 52)), ?_, ?_, ?_⟩
  · unfold fl
    rw [if_neg (not_le.mpr hx)]
  · have : ((2 ^ 52 : ℤ) : ℚ) ≤ x / (2 : ℚ) ^ (expo x - 52) := by
      rw [le_div_iff₀ hp]
      push_cast
      rw [show (4503599627370496 : ℚ) = (2 : ℚ) ^ (52 : ℤ) by norm_num, ← zpow_add₀ (by norm_num)]
      rw [show (52 : ℤ) + (expo x - 52) = expo x by ring]
      exact h1
    have := roundHalfEven_mono this
    rwa [roundHalfEven_int] at this
  · have : x / (2 : ℚ) ^ (expo x - 52) ≤ ((2 ^ 53 : ℤ) : ℚ) := by
      rw [div_le_iff₀ hp]
      push_cast
      rw [show (9007199254740992 : ℚ) = (2 : ℚ) ^ (53 : ℤ) by norm_num, ← zpow_add₀ (by norm_num)]
      rw [show (53 : ℤ) + (expo x - 52) = expo x + 1 by ring]
      exact h2.le
    have := roundHalfEven_mono this
    rwa [roundHalfEven_int] at this

/-- The error is at most half a unit in the last place. -/
theorem fl_err_digits {x : ℚ} (hx : 0 < x) : |fl x - x| ≤ 1 / 2 * (2 : ℚ) ^ (expo x - 52) := by
  have hp : (0 : ℚ) < (2 : ℚ) ^ (expo x - 52) := by positivity
  have h := roundHalfEven_err (x / (2 : ℚ) ^ (expo x - 52))
  have e : fl x - x = ((roundHalfEven (x / (2 : ℚ) ^ (expo x - 52)) : ℚ) - x / (2 : ℚ) ^ (expo x - 52)) * (2 : ℚ) ^ (expo x - 52) := by
    rw [sub_mul, div_mul_cancel₀ _ hp.ne']
    unfold fl
    rw [if_neg (not_le.mpr hx)]
  rw [e, abs_mul, abs_of_pos hp]
  exact mul_le_mul_of_nonneg_right h hp.le

theorem fl_of_nonpos {x : ℚ} (h : x ≤ 0) : fl x = 0 := by unfold fl; rw [if_pos h]

theorem fl_bounds {x : ℚ} (hx : 0 < x) : (2 : ℚ) ^ (expo x) ≤ fl x ∧ fl x ≤ (2 : ℚ) ^ (expo x + 1) := by
  obtain ⟨m, h1, h2, h3⟩ := fl_digits hx
  have hp : (0 : ℚ) ≤ (2 : ℚ) ^ (expo x - 52) := by positivity
  have h2' : ((2 ^ 52 : ℤ) : ℚ) ≤ m := by exact_mod_cast h2
  have h3' : (m : ℚ) ≤ ((2 ^ 53 : ℤ) : ℚ) := by exact_mod_cast h3
  rw [h1]
  constructor
  · calc (2 : ℚ) ^ (expo x) = ((2 ^ 52 : ℤ) : ℚ) * (2 : ℚ) ^ (expo x - 52) := by
          push_cast
          rw [show (4503599627370496 : ℚ) = (2 : ℚ) ^ (52 : ℤ) by norm_num, ← zpow_add₀ (by norm_num)]
          congr 1; ring
      _ ≤ _ := mul_le_mul_of_nonneg_right h2' hp
  · calc (m : ℚ) * (2 : ℚ) ^ (expo x - 52) ≤ ((2 ^ 53 : ℤ) : ℚ) * (2 : ℚ) ^ (expo x - 52) := mul_le_mul_of_nonneg_right h3' hp
      _ = _ := by
          push_cast
          rw [show (9007199254740992 : ℚ) = (2 : ℚ) ^ (53 : ℤ) by norm_num, ← zpow_add₀ (by norm_num)]
          congr 1; ring

theorem fl_mono {x y : ℚ} (h : x ≤ y) : fl x ≤ fl y := by
  rcases le_or_gt x 0 with hx | hx
  · rw [fl_of_nonpos hx]
    rcases le_or_gt y 0 with hy | hy
    · rw [fl_of_nonpos hy]
    · exact fl_nonneg y hy.le
  · have hy : 0 < y := lt_of_lt_of_le hx h
    obtain ⟨a1, a2⟩ := expo_spec x hx
    obtain ⟨b1, b2⟩ := expo_spec y hy
    have hle : expo x ≤ expo y := by
      have : (2 : ℚ) ^ (expo x) < 2 ^ (expo y + 1) := lt_of_le_of_lt (le_trans a1 h) b2
      rw [zpow_lt_zpow_iff_right₀ (by norm_num)] at this
      omega
    rcases hle.lt_or_eq with hlt | heq
    · calc fl x ≤ (2 : ℚ) ^ (expo x + 1) := (fl_bounds hx).2
        _ ≤ (2 : ℚ) ^ (expo y) := zpow_le_zpow_right₀ (by norm_num) (by omega)
        _ ≤ fl y := (fl_bounds hy).1
    · unfold fl
      rw [if_neg (not_le.mpr hx), if_neg (not_le.mpr hy)]
      simp only [heq]
      apply mul_le_mul_of_nonneg_right _ (by positivity)
      exact_mod_cast roundHalfEven_mono (div_le_div_of_nonneg_right h (by positivity))

theorem fl_scaled {m e : ℤ} (h1 : 2 ^ 52 ≤ m) (h2 : m < 2 ^ 53) : fl (m * (2 : ℚ) ^ e) = m * (2 : ℚ) ^ e := by
  have hm : (0 : ℚ) < m := by
    have : (0 : ℤ) < m := by omega
    exact_mod_cast this
  have hp : (0 : ℚ) < (2 : ℚ) ^ e := by positivity
  have hx : (0 : ℚ) < m * (2 : ℚ) ^ e := mul_pos hm hp
  have h1' : ((2 ^ 52 : ℤ) : ℚ) ≤ m := by exact_mod_cast h1
  have h2' : (m : ℚ) < ((2 ^ 53 : ℤ) : ℚ) := by exact_mod_cast h2
  have he : expo (m * (2 : ℚ) ^ e) = e + 52 := by
    apply expo_unique hx
    · calc (2 : ℚ) ^ (e + 52) = ((2 ^ 52 : ℤ) : ℚ) * (2 : ℚ) ^ e := by
            push_cast
            rw [show (4503599627370496 : ℚ) = (2 : ℚ) ^ (52 : ℤ) by norm_num, ← zpow_add₀ (by norm_num)]
            congr 1; ring
        _ ≤ _ := mul_le_mul_of_nonneg_right h1' hp.le
    · calc (m : ℚ) * (2 : ℚ) ^ e < ((2 ^ 53 : ℤ) : ℚ) * (2 : ℚ) ^ e := mul_lt_mul_of_pos_right h2' hp
        _ = (2 : ℚ) ^ (e + 52 + 1) := by
            push_cast
            rw [show (9007199254740992 : ℚ) = (2 : ℚ) ^ (53 : ℤ) by norm_num, ← zpow_add₀ (by norm_num)]
            congr 1; ring
  unfold fl
  rw [if_neg (not_le.mpr hx), he]
  simp only [add_sub_cancel_right]
  rw [mul_div_assoc, div_self hp.ne', mul_one, roundHalfEven_int]

theorem fl_fl (x : ℚ) : fl (fl x) = fl x := by
  rcases le_or_gt x 0 with hx | hx
  · rw [fl_of_nonpos hx, fl_zero]
  · obtain ⟨m, h1, h2, h3⟩ := fl_digits hx
    rw [h1]
    rcases h3.lt_or_eq with hlt | heq
    · exact fl_scaled h2 hlt
    · subst heq
      have e : ((2 ^ 53 : ℤ) : ℚ) * (2 : ℚ) ^ (expo x - 52) = ((2 ^ 52 : ℤ) : ℚ) * (2 : ℚ) ^ (expo x - 52 + 1) := by
        rw [zpow_add₀ (by norm_num)]
        push_cast
        ring
      rw [e]
      exact fl_scaled (le_refl _) (by norm_num)

/-- Adding something nonnegative to a double does not make it smaller. -/
theorem fl_add_ge {s q : ℚ} (hs : fl s = s) (hq : 0 ≤ q) : s ≤ fl (s + q) := by
  calc s = fl s := hs.symm
    _ ≤ fl (s + q) := fl_mono (by linarith)

end Verif.Float
