import Verif.Float.Model

/-! Helper lemmas: the standard error bound of IEEE rounding. -/

namespace Verif.Float

theorem roundHalfEven_err (x : ℚ) : |(roundHalfEven x : ℚ) - x| ≤ 1 / 2 := by
  have h1 : (⌊x⌋ : ℚ) ≤ x := Int.floor_le x
  have h2 : x < ⌊x⌋ + 1 := Int.lt_floor_add_one x
  unfold roundHalfEven
  simp only
  rw [abs_le]
  split_ifs <;> push_cast <;> constructor <;> linarith

theorem roundHalfEven_int (n : ℤ) : roundHalfEven (n : ℚ) = n := by
  unfold roundHalfEven
  simp

private theorem log2_bounds (n : ℕ) (h : n ≠ 0) :
    (2 : ℚ) ^ (Nat.log2 n : ℤ) ≤ n ∧ (n : ℚ) < (2 : ℚ) ^ ((Nat.log2 n : ℤ) + 1) := by
  constructor
  · have := Nat.log2_self_le h
    rw [zpow_natCast]; exact_mod_cast this
  · have := Nat.lt_log2_self (n := n)
    have e : ((Nat.log2 n : ℤ) + 1) = ((Nat.log2 n + 1 : ℕ) : ℤ) := by push_cast; rfl
    rw [e, zpow_natCast]; exact_mod_cast this

theorem expo_spec (x : ℚ) (hx : 0 < x) :
    (2 : ℚ) ^ expo x ≤ x ∧ x < (2 : ℚ) ^ (expo x + 1) := by
  have hnum : 0 < x.num := Rat.num_pos.mpr hx
  have hn0 : x.num.natAbs ≠ 0 := by omega
  have hd0 : x.den ≠ 0 := x.den_nz
  obtain ⟨n1, n2⟩ := log2_bounds _ hn0
  obtain ⟨d1, d2⟩ := log2_bounds _ hd0
  have hdpos : (0 : ℚ) < x.den := by exact_mod_cast Nat.pos_of_ne_zero hd0
  have hxe : x * x.den = (x.num.natAbs : ℚ) := by
    have h := Rat.mul_den_eq_num x
    rw [h]
    have h2 : (x.num.natAbs : ℤ) = x.num := by omega
    rw [← Int.cast_natCast (R := ℚ), h2]
  set a : ℤ := (Nat.log2 x.num.natAbs : ℤ) with ha
  set b : ℤ := (Nat.log2 x.den : ℤ) with hb
  have two_ne : (2 : ℚ) ≠ 0 := by norm_num
  have hup : x < (2 : ℚ) ^ (a - b + 1) := by
    have : x * x.den < (2 : ℚ) ^ (a - b + 1) * x.den := by
      rw [hxe]
      calc (x.num.natAbs : ℚ) < (2 : ℚ) ^ (a + 1) := n2
        _ = (2 : ℚ) ^ (a - b + 1) * (2 : ℚ) ^ b := by rw [← zpow_add₀ two_ne]; congr 1; ring
        _ ≤ _ := by
          apply mul_le_mul_of_nonneg_left d1; positivity
    exact lt_of_mul_lt_mul_right this hdpos.le
  have hlo : (2 : ℚ) ^ (a - b - 1) ≤ x := by
    have : (2 : ℚ) ^ (a - b - 1) * x.den ≤ x * x.den := by
      rw [hxe]
      calc (2 : ℚ) ^ (a - b - 1) * x.den ≤ (2 : ℚ) ^ (a - b - 1) * (2 : ℚ) ^ (b + 1) := by
            apply mul_le_mul_of_nonneg_left d2.le; positivity
        _ = (2 : ℚ) ^ a := by rw [← zpow_add₀ two_ne]; congr 1; ring
        _ ≤ _ := n1
    exact le_of_mul_le_mul_right this hdpos
  unfold expo
  simp only [← ha, ← hb]
  split_ifs with h
  · exact ⟨h, hup⟩
  · refine ⟨hlo, ?_⟩
    have e : a - b - 1 + 1 = a - b := by ring
    rw [e]; exact lt_of_not_ge h

theorem fl_zero : fl 0 = 0 := by simp [fl]

/-- The standard model of floating point arithmetic: relative error at most `2^-53`. -/
theorem fl_err (x : ℚ) (hx : 0 ≤ x) : |fl x - x| ≤ x / 2 ^ 53 := by
  rcases hx.eq_or_lt with rfl | hx
  · simp [fl]
  · unfold fl
    rw [if_neg (not_le.mpr hx)]
    simp only
    obtain ⟨h1, h2⟩ := expo_spec x hx
    set e := expo x - 52 with he
    have hp : (0 : ℚ) < (2 : ℚ) ^ e := by positivity
    have hr := roundHalfEven_err (x / (2 : ℚ) ^ e)
    set r : ℚ := (roundHalfEven (x / (2 : ℚ) ^ e) : ℚ)
    have hsplit : r * (2 : ℚ) ^ e - x = (r - x / (2 : ℚ) ^ e) * (2 : ℚ) ^ e := by
      field_simp
    rw [hsplit, abs_mul, abs_of_pos hp]
    have h52 : (2 : ℚ) ^ e * 2 ^ 52 ≤ x := by
      have : (2 : ℚ) ^ e * 2 ^ 52 = (2 : ℚ) ^ expo x := by
        rw [he, zpow_sub₀ (by norm_num)]; norm_cast; field_simp
      linarith
    calc |r - x / (2 : ℚ) ^ e| * (2 : ℚ) ^ e ≤ (1 / 2) * (2 : ℚ) ^ e := by
          apply mul_le_mul_of_nonneg_right hr hp.le
      _ ≤ x / 2 ^ 53 := by
          rw [le_div_iff₀ (by positivity)]
          calc 1 / 2 * (2 : ℚ) ^ e * 2 ^ 53 = (2 : ℚ) ^ e * 2 ^ 52 := by ring
            _ ≤ x := h52

theorem fl_lower (x : ℚ) (hx : 0 ≤ x) : x * (1 - 1 / 2 ^ 53) ≤ fl x := by
  have := (abs_le.mp (fl_err x hx)).1
  have e : x * (1 - 1 / 2 ^ 53) = x - x / 2 ^ 53 := by ring
  linarith

theorem fl_upper (x : ℚ) (hx : 0 ≤ x) : fl x ≤ x * (1 + 1 / 2 ^ 53) := by
  have := (abs_le.mp (fl_err x hx)).2
  have e : x * (1 + 1 / 2 ^ 53) = x + x / 2 ^ 53 := by ring
  linarith

theorem fl_nonneg (x : ℚ) (hx : 0 ≤ x) : 0 ≤ fl x := by
  refine le_trans ?_ (fl_lower x hx)
  apply mul_nonneg hx; norm_num

/-- Integers below `2^53` are represented exactly. -/
theorem fl_natCast (n : ℕ) (h : n < 2 ^ 53) : fl (n : ℚ) = n := by
  rcases Nat.eq_zero_or_pos n with rfl | hn
  · simp [fl]
  · have hx : (0 : ℚ) < n := by exact_mod_cast hn
    obtain ⟨h1, h2⟩ := expo_spec (n : ℚ) hx
    unfold fl
    rw [if_neg (not_le.mpr hx)]
    simp only
    have he : expo (n : ℚ) - 52 ≤ 0 := by
      by_contra hc
      have : (53 : ℤ) ≤ expo (n : ℚ) := by omega
      have h3 : (2 : ℚ) ^ (53 : ℤ) ≤ (2 : ℚ) ^ expo (n : ℚ) :=
        zpow_le_zpow_right₀ (by norm_num) this
      have h4 : (n : ℚ) < 2 ^ 53 := by exact_mod_cast h
      have h5 : (2 : ℚ) ^ (53 : ℤ) = 2 ^ 53 := by norm_num
      linarith
    obtain ⟨k, hk⟩ : ∃ k : ℕ, expo (n : ℚ) - 52 = -(k : ℤ) := ⟨(-(expo (n : ℚ) - 52)).toNat, by omega⟩
    rw [hk]
    have : (n : ℚ) / (2 : ℚ) ^ (-(k : ℤ)) = ((n * 2 ^ k : ℤ) : ℚ) := by
      rw [zpow_neg, div_inv_eq_mul]; push_cast; norm_cast
    rw [this, roundHalfEven_int]
    push_cast
    rw [zpow_neg]
    field_simp
    norm_cast

/-- Truncated float division of integers below `2^53` is integer division. -/
theorem pyInt_pyDiv (a b : ℕ) (ha : a < 2 ^ 53) (hb : 0 < b) : pyInt (pyDiv a b) = a / b := by
  unfold pyInt pyDiv
  have hbq : (0 : ℚ) < b := by exact_mod_cast hb
  have hnn : (0 : ℚ) ≤ (a : ℚ) / b := by positivity
  rw [Nat.floor_eq_iff (fl_nonneg _ hnn)]
  have hdm := Nat.div_add_mod a b
  have hml := Nat.mod_lt a hb
  set q := a / b
  set r := a % b
  have haq : (a : ℚ) = b * q + r := by exact_mod_cast hdm.symm
  rcases Nat.eq_zero_or_pos r with hr | hr
  · have : (a : ℚ) / b = (q : ℚ) := by rw [haq, hr]; field_simp; simp
    rw [this, fl_natCast q (by
      have : q ≤ a := Nat.div_le_self a b
      omega)]
    exact ⟨le_rfl, by linarith⟩
  · have haP : (a : ℚ) < 2 ^ 53 := by exact_mod_cast ha
    have hrq : (1 : ℚ) ≤ r := by exact_mod_cast hr
    have hrb : (r : ℚ) + 1 ≤ b := by exact_mod_cast hml
    have hrel : (a : ℚ) / b / 2 ^ 53 < 1 / b := by
      rw [div_div, div_lt_div_iff₀ (by positivity) hbq]
      nlinarith
    have hx : (a : ℚ) / b = q + r / b := by rw [haq]; field_simp
    have h1 := abs_le.mp (fl_err _ hnn)
    have hr1 : (1 : ℚ) / b ≤ r / b := by gcongr
    have hr2 : (r : ℚ) / b + 1 / b ≤ 1 := by rw [← add_div, div_le_one hbq]; exact hrb
    constructor
    · linarith [h1.1]
    · linarith [h1.2]

end Verif.Float
