import Verif.Transform.Spec
import Verif.Float.Lemmas
import Mathlib.Tactic.LinearCombination
import Mathlib.Algebra.Ring.Int.Parity

/-!
# Property C50: the merged transform is the composition of the transforms
-/

set_option linter.unusedSectionVars false

namespace Verif.Transform

open Verif.Float

/-! ## Matrices -/

section
variable {K : Type} [Field K]

/-- `m` maps the point `q` to the point `p`, up to a factor -/
def Maps (m : Mat K) (q p : K × K) : Prop :=
  ∃ l : K, l ≠ 0 ∧ m.a * q.1 + m.b * q.2 + m.c = l * p.1 ∧ m.d * q.1 + m.e * q.2 + m.f = l * p.2 ∧ m.g * q.1 + m.h * q.2 + m.i = l

theorem Maps.mul {m n : Mat K} {q r p : K × K} (h1 : Maps n q r) (h2 : Maps m r p) : Maps (m.mul n) q p := by
  obtain ⟨l, hl, a1, a2, a3⟩ := h1
  obtain ⟨k, hk, b1, b2, b3⟩ := h2
  refine ⟨k * l, mul_ne_zero hk hl, ?_, ?_, ?_⟩
  · show (m.a * n.a + m.b * n.d + m.c * n.g) * q.1 + (m.a * n.b + m.b * n.e + m.c * n.h) * q.2 + (m.a * n.c + m.b * n.f + m.c * n.i) = _
    linear_combination m.a * a1 + m.b * a2 + m.c * a3 + l * b1
  · show (m.d * n.a + m.e * n.d + m.f * n.g) * q.1 + (m.d * n.b + m.e * n.e + m.f * n.h) * q.2 + (m.d * n.c + m.e * n.f + m.f * n.i) = _
    linear_combination m.d * a1 + m.e * a2 + m.f * a3 + l * b2
  · show (m.g * n.a + m.h * n.d + m.i * n.g) * q.1 + (m.g * n.b + m.h * n.e + m.i * n.h) * q.2 + (m.g * n.c + m.h * n.f + m.i * n.i) = _
    linear_combination m.g * a1 + m.h * a2 + m.i * a3 + l * b3

theorem Maps.inv {m : Mat K} {q p : K × K} (hd : m.det ≠ 0) (h : Maps m q p) : Maps m.inv p q := by
  obtain ⟨l, hl, a1, a2, a3⟩ := h
  refine ⟨1 / l, one_div_ne_zero hl, ?_, ?_, ?_⟩
  · show (m.e * m.i - m.f * m.h) / m.det * p.1 + (m.c * m.h - m.b * m.i) / m.det * p.2 + (m.b * m.f - m.c * m.e) / m.det = _
    field_simp
    unfold Mat.det
    linear_combination (-(m.e * m.i - m.f * m.h)) * a1 - (m.c * m.h - m.b * m.i) * a2 - (m.b * m.f - m.c * m.e) * a3
  · show (m.f * m.g - m.d * m.i) / m.det * p.1 + (m.a * m.i - m.c * m.g) / m.det * p.2 + (m.c * m.d - m.a * m.f) / m.det = _
    field_simp
    unfold Mat.det
    linear_combination (-(m.f * m.g - m.d * m.i)) * a1 - (m.a * m.i - m.c * m.g) * a2 - (m.c * m.d - m.a * m.f) * a3
  · show (m.d * m.h - m.e * m.g) / m.det * p.1 + (m.b * m.g - m.a * m.h) / m.det * p.2 + (m.a * m.e - m.b * m.d) / m.det = _
    field_simp
    unfold Mat.det
    linear_combination (-(m.d * m.h - m.e * m.g)) * a1 - (m.b * m.g - m.a * m.h) * a2 - (m.a * m.e - m.b * m.d) * a3

theorem det_mul (m n : Mat K) : (m.mul n).det = m.det * n.det := by
  simp only [Mat.det, Mat.mul]; ring

theorem mul_assoc' (m n o : Mat K) : (m.mul n).mul o = m.mul (n.mul o) := by
  ext <;> simp only [Mat.mul] <;> ring

theorem mul_eye (m : Mat K) : m.mul Mat.eye = m := by
  ext <;> simp [Mat.mul, Mat.eye]

theorem eye_mul (m : Mat K) : Mat.eye.mul m = m := by
  ext <;> simp [Mat.mul, Mat.eye]

/-- The last row is `0 0 1` -/
def IsAffine (m : Mat K) : Prop := m.g = 0 ∧ m.h = 0 ∧ m.i = 1

theorem IsAffine.mul {m n : Mat K} (h1 : IsAffine m) (h2 : IsAffine n) : IsAffine (m.mul n) := by
  obtain ⟨a, b, c⟩ := h1
  obtain ⟨d, e, f⟩ := h2
  refine ⟨?_, ?_, ?_⟩ <;> simp [Mat.mul, a, b, c, d, e, f]

theorem IsAffine.inv {m : Mat K} (h : IsAffine m) (hd : m.det ≠ 0) : IsAffine m.inv := by
  obtain ⟨a, b, c⟩ := h
  have hdet : m.det = m.a * m.e - m.b * m.d := by unfold Mat.det; rw [a, b, c]; ring
  refine ⟨?_, ?_, ?_⟩
  · simp [Mat.inv, a, b]
  · simp [Mat.inv, a, b]
  · show (m.a * m.e - m.b * m.d) / m.det = 1
    rw [← hdet]; exact div_self hd

theorem Maps.affine {m : Mat K} {q p : K × K} (h : IsAffine m) (hm : Maps m q p) :
    m.a * q.1 + m.b * q.2 + m.c = p.1 ∧ m.d * q.1 + m.e * q.2 + m.f = p.2 := by
  obtain ⟨a, b, c⟩ := h
  obtain ⟨l, hl, a1, a2, a3⟩ := hm
  have : l = 1 := by rw [← a3, a, b, c]; ring
  subst this
  exact ⟨by rw [a1]; ring, by rw [a2]; ring⟩

theorem maps_of_affine {m : Mat K} {q p : K × K} (h : IsAffine m) (h1 : m.a * q.1 + m.b * q.2 + m.c = p.1)
    (h2 : m.d * q.1 + m.e * q.2 + m.f = p.2) : Maps m q p := by
  obtain ⟨a, b, c⟩ := h
  refine ⟨1, one_ne_zero, by rw [h1]; ring, by rw [h2]; ring, by rw [a, b, c]; ring⟩

theorem translate_affine (x y : K) : IsAffine (translate x y) := ⟨rfl, rfl, rfl⟩
theorem scale_affine (x y : K) : IsAffine (scale x y) := ⟨rfl, rfl, rfl⟩
theorem hflip_affine : IsAffine (hflip : Mat K) := ⟨rfl, rfl, rfl⟩
theorem vflip_affine : IsAffine (vflip : Mat K) := ⟨rfl, rfl, rfl⟩
theorem rotate_affine (c s : K) : IsAffine (rotate c s) := ⟨rfl, rfl, rfl⟩
theorem eye_affine : IsAffine (Mat.eye : Mat K) := ⟨rfl, rfl, rfl⟩

theorem translate_det (x y : K) : (translate x y).det = 1 := by simp [Mat.det, translate]
theorem scale_det (x y : K) : (scale x y).det = x * y := by simp [Mat.det, scale]
theorem hflip_det : (hflip : Mat K).det = -1 := by simp [Mat.det, hflip]
theorem vflip_det : (vflip : Mat K).det = -1 := by simp [Mat.det, vflip]
theorem rotate_det (c s : K) : (rotate c s).det = c * c + s * s := by simp [Mat.det, rotate]
theorem eye_det : (Mat.eye : Mat K).det = 1 := by simp [Mat.det, Mat.eye]

theorem maps_eye (p : K × K) : Maps Mat.eye p p := maps_of_affine eye_affine (by simp [Mat.eye]) (by simp [Mat.eye])

end

/-! ## Sizes -/

theorem resizedSize_eq {s : Size} (hh : 0 < s.h) (hw : 0 < s.w) {t : ResizeTo}
    (ht : ∀ n max, t = .short n max → n * Nat.max s.w s.h < 2 ^ 53 ∧ ∀ m, max = some m → m * n < 2 ^ 53) :
    resizedSize s t = tvResize s t := by
  cases t with
  | both h w => rfl
  | short n max =>
    obtain ⟨h1, h2⟩ := ht n max rfl
    unfold resizedSize tvResize
    by_cases hc : s.w ≤ s.h
    · have e1 : pyInt (pyDiv (n * s.h) s.w) = n * s.h / s.w := pyInt_pyDiv _ _
        (lt_of_le_of_lt (Nat.mul_le_mul_left _ (Nat.le_max_right ..)) h1) hw
      simp only [if_pos hc, e1]
      cases max with
      | none => rfl
      | some m =>
        simp only
        by_cases h3 : m ≤ n
        · rw [if_pos h3, if_pos h3]
        · rw [if_neg h3, if_neg h3]
          by_cases h4 : n * s.h / s.w > m
          · rw [if_pos h4, if_pos h4, pyInt_pyDiv _ _ (h2 m rfl) (by omega)]
          · rw [if_neg h4, if_neg h4]
    · have e1 : pyInt (pyDiv (n * s.w) s.h) = n * s.w / s.h := pyInt_pyDiv _ _
        (lt_of_le_of_lt (Nat.mul_le_mul_left _ (Nat.le_max_left ..)) h1) hh
      simp only [if_neg hc, e1]
      cases max with
      | none => rfl
      | some m =>
        simp only
        by_cases h3 : m ≤ n
        · rw [if_pos h3, if_pos h3]
        · rw [if_neg h3, if_neg h3]
          by_cases h4 : n * s.w / s.h > m
          · rw [if_pos h4, if_pos h4, pyInt_pyDiv _ _ (h2 m rfl) (by omega)]
          · rw [if_neg h4, if_neg h4]

theorem roundHalfEven_neg (n : ℤ) : roundHalfEven (-((n : ℚ) / 2)) = -roundHalfEven ((n : ℚ) / 2) := by
  rcases Int.even_or_odd' n with ⟨k, rfl | rfl⟩
  · have e : ((2 * k : ℤ) : ℚ) / 2 = (k : ℚ) := by push_cast; ring
    have e' : -(k : ℚ) = ((-k : ℤ) : ℚ) := by push_cast; ring
    rw [e, e', roundHalfEven_int, roundHalfEven_int]
  · have e : ((2 * k + 1 : ℤ) : ℚ) / 2 = (k : ℚ) + 1 / 2 := by push_cast; ring
    rw [e]
    have f1 : ⌊(k : ℚ) + 1 / 2⌋ = k := by rw [Int.floor_eq_iff]; constructor <;> linarith
    have f2 : ⌊-((k : ℚ) + 1 / 2)⌋ = -k - 1 := by rw [Int.floor_eq_iff]; push_cast; constructor <;> linarith
    unfold roundHalfEven
    simp only [f1, f2]
    have g1 : (k : ℚ) + 1 / 2 - (k : ℚ) = 1 / 2 := by ring
    have g2 : -((k : ℚ) + 1 / 2) - ((-k - 1 : ℤ) : ℚ) = 1 / 2 := by push_cast; ring
    rw [g1, g2]
    simp only [lt_irrefl, if_false]
    split <;> split <;> omega

theorem roundHalfEven_half (d : Nat) : roundHalfEven ((d : ℚ) / 2) = ((d / 2 : Nat) : ℤ) + (if d % 4 = 3 then 1 else 0) := by
  rcases Nat.even_or_odd' d with ⟨k, rfl | rfl⟩
  · have e : ((2 * k : Nat) : ℚ) / 2 = ((k : ℤ) : ℚ) := by push_cast; ring
    rw [e, roundHalfEven_int, if_neg (by omega)]
    omega
  · have e : ((2 * k + 1 : Nat) : ℚ) / 2 = (k : ℚ) + 1 / 2 := by push_cast; ring
    rw [e]
    have f1 : ⌊(k : ℚ) + 1 / 2⌋ = (k : ℤ) := by rw [Int.floor_eq_iff]; push_cast; constructor <;> linarith
    unfold roundHalfEven
    simp only [f1]
    have g1 : (k : ℚ) + 1 / 2 - ((k : ℤ) : ℚ) = 1 / 2 := by push_cast; ring
    rw [g1]
    simp only [lt_irrefl, if_false]
    split <;> split <;> omega

/-- The shift of the center crop is the one of torchvision, except when an image is padded by 3 modulo 4 pixels -/
theorem centerShift_eq (t s : Nat) :
    centerShift t s = tvCenter t s + (if s < t ∧ (t - s) % 4 = 3 then 1 else 0) := by
  unfold centerShift tvCenter
  by_cases h : s < t
  · rw [if_pos h]
    have e : ((t : ℚ) - (s : ℚ)) / 2 = ((t - s : Nat) : ℚ) / 2 := by rw [Nat.cast_sub h.le]
    rw [e, roundHalfEven_half]
    by_cases h3 : (t - s) % 4 = 3
    · rw [if_pos h3, if_pos ⟨h, h3⟩]
    · rw [if_neg h3, if_neg (fun h' => h3 h'.2)]
  · rw [if_neg h, if_neg (fun h' => h h'.1)]
    have e : ((t : ℚ) - (s : ℚ)) / 2 = -((((s : ℤ) - (t : ℤ) : ℤ) : ℚ) / 2) := by push_cast; ring
    have e' : ((s : ℚ) - (t : ℚ)) / 2 = ((((s : ℤ) - (t : ℤ) : ℤ) : ℚ) / 2) := by push_cast; ring
    rw [e, e', roundHalfEven_neg]; ring

section
variable {K : Type} [Field K] [LinearOrder K] [IsStrictOrderedRing K] [FloorRing K]

theorem max_four (c x y : K) : max (max (c - x - y) (c + x - y)) (max (c + x + y) (c - x + y)) = c + |x| + |y| := by
  rcases abs_cases x with ⟨hx, hx'⟩ | ⟨hx, hx'⟩ <;> rcases abs_cases y with ⟨hy, hy'⟩ | ⟨hy, hy'⟩ <;> rw [hx, hy]
  · apply le_antisymm
    · simp only [max_le_iff]; refine ⟨⟨?_, ?_⟩, ?_, ?_⟩ <;> linarith
    · exact le_max_of_le_right (le_max_of_le_left (by linarith))
  · apply le_antisymm
    · simp only [max_le_iff]; refine ⟨⟨?_, ?_⟩, ?_, ?_⟩ <;> linarith
    · exact le_max_of_le_left (le_max_of_le_right (by linarith))
  · apply le_antisymm
    · simp only [max_le_iff]; refine ⟨⟨?_, ?_⟩, ?_, ?_⟩ <;> linarith
    · exact le_max_of_le_right (le_max_of_le_right (by linarith))
  · apply le_antisymm
    · simp only [max_le_iff]; refine ⟨⟨?_, ?_⟩, ?_, ?_⟩ <;> linarith
    · exact le_max_of_le_left (le_max_of_le_left (by linarith))

theorem min_four (c x y : K) : min (min (c - x - y) (c + x - y)) (min (c + x + y) (c - x + y)) = c - |x| - |y| := by
  have h := max_four (-c) x y
  have e : ∀ u v : K, max u v = -min (-u) (-v) := fun u v => by
    rcases le_total u v with h | h
    · rw [max_eq_right h, min_eq_right (neg_le_neg h), neg_neg]
    · rw [max_eq_left h, min_eq_left (neg_le_neg h), neg_neg]
  rw [e, e, e (-c + x + y)] at h
  simp only [neg_neg] at h
  have h' : min (min (-(-c - x - y)) (-(-c + x - y))) (min (-(-c + x + y)) (-(-c - x + y))) = -(-c + |x| + |y|) := by
    rw [← h, neg_neg]
  rw [show c - |x| - |y| = -(-c + |x| + |y|) by ring, ← h']
  apply le_antisymm
  · simp only [le_min_iff, min_le_iff]
    refine ⟨⟨?_, ?_⟩, ?_, ?_⟩
    · right; left; exact le_of_eq (by ring)
    · right; right; exact le_of_eq (by ring)
    · left; left; exact le_of_eq (by ring)
    · left; right; exact le_of_eq (by ring)
  · simp only [le_min_iff, min_le_iff]
    refine ⟨⟨?_, ?_⟩, ?_, ?_⟩
    · right; left; exact le_of_eq (by ring)
    · right; right; exact le_of_eq (by ring)
    · left; left; exact le_of_eq (by ring)
    · left; right; exact le_of_eq (by ring)

theorem max_four' {c x y q1 q2 q3 q4 : K} (h1 : q1 = c - x - y) (h2 : q2 = c + x - y) (h3 : q3 = c + x + y) (h4 : q4 = c - x + y) :
    max (max q1 q2) (max q3 q4) = c + |x| + |y| ∧ min (min q1 q2) (min q3 q4) = c - |x| - |y| := by
  subst h1; subst h2; subst h3; subst h4
  exact ⟨max_four c x y, min_four c x y⟩

/-- The size of the expanded rotated image is the one PIL computes from the corners -/
theorem rotatedSize_expand (s : Size) (cos sin : K) : rotatedSize s cos sin true = pilExpand s cos sin := by
  have ah : |(s.h : K)| = (s.h : K) := abs_of_nonneg (Nat.cast_nonneg _)
  have aw : |(s.w : K)| = (s.w : K) := abs_of_nonneg (Nat.cast_nonneg _)
  have a2 : |(2 : K)| = 2 := abs_of_pos (by norm_num)
  unfold rotatedSize pilExpand pilRotate
  simp only [if_true]
  have ex : |cos * ((s.w : K) / 2)| = |cos| * (s.w : K) / 2 := by rw [abs_mul, abs_div, aw, a2]; ring
  have ey : |-sin * ((s.h : K) / 2)| = |sin| * (s.h : K) / 2 := by rw [abs_mul, abs_neg, abs_div, ah, a2]; ring
  have ex' : |sin * ((s.w : K) / 2)| = |sin| * (s.w : K) / 2 := by rw [abs_mul, abs_div, aw, a2]; ring
  have ey' : |cos * ((s.h : K) / 2)| = |cos| * (s.h : K) / 2 := by rw [abs_mul, abs_div, ah, a2]; ring
  have m1 := max_four' (c := (s.w : K) / 2) (x := cos * ((s.w : K) / 2)) (y := -sin * ((s.h : K) / 2))
    (q1 := cos * (0 - (s.w : K) / 2) - sin * (0 - (s.h : K) / 2) + (s.w : K) / 2)
    (q2 := cos * ((s.w : K) - (s.w : K) / 2) - sin * (0 - (s.h : K) / 2) + (s.w : K) / 2)
    (q3 := cos * ((s.w : K) - (s.w : K) / 2) - sin * ((s.h : K) - (s.h : K) / 2) + (s.w : K) / 2)
    (q4 := cos * (0 - (s.w : K) / 2) - sin * ((s.h : K) - (s.h : K) / 2) + (s.w : K) / 2)
    (by ring) (by ring) (by ring) (by ring)
  have m2 := max_four' (c := (s.h : K) / 2) (x := sin * ((s.w : K) / 2)) (y := cos * ((s.h : K) / 2))
    (q1 := sin * (0 - (s.w : K) / 2) + cos * (0 - (s.h : K) / 2) + (s.h : K) / 2)
    (q2 := sin * ((s.w : K) - (s.w : K) / 2) + cos * (0 - (s.h : K) / 2) + (s.h : K) / 2)
    (q3 := sin * ((s.w : K) - (s.w : K) / 2) + cos * ((s.h : K) - (s.h : K) / 2) + (s.h : K) / 2)
    (q4 := sin * (0 - (s.w : K) / 2) + cos * ((s.h : K) - (s.h : K) / 2) + (s.h : K) / 2)
    (by ring) (by ring) (by ring) (by ring)
  rw [m1.1, m1.2, m2.1, m2.2, ex, ey, ex', ey']
  rw [show (s.h : K) / 2 + (|sin| * (s.w : K) + |cos| * (s.h : K)) / 2
        = (s.h : K) / 2 + |sin| * (s.w : K) / 2 + |cos| * (s.h : K) / 2 by ring,
    show (s.h : K) / 2 - (|sin| * (s.w : K) + |cos| * (s.h : K)) / 2
        = (s.h : K) / 2 - |sin| * (s.w : K) / 2 - |cos| * (s.h : K) / 2 by ring,
    show (s.w : K) / 2 + (|sin| * (s.h : K) + |cos| * (s.w : K)) / 2
        = (s.w : K) / 2 + |cos| * (s.w : K) / 2 + |sin| * (s.h : K) / 2 by ring,
    show (s.w : K) / 2 - (|sin| * (s.h : K) + |cos| * (s.w : K)) / 2
        = (s.w : K) / 2 - |cos| * (s.w : K) / 2 - |sin| * (s.h : K) / 2 by ring]

/-! ## One transform -/

theorem proj_maps {m : Mat K} {p q : K × K} (h : proj m p = some q) : Maps m p q := by
  unfold proj at h
  simp only at h
  by_cases hw : m.g * p.1 + m.h * p.2 + m.i = 0
  · rw [if_pos hw] at h; cases h
  · rw [if_neg hw] at h
    cases h
    refine ⟨_, hw, ?_, ?_, rfl⟩
    · show _ = _ * ((m.a * p.1 + m.b * p.2 + m.c) / _)
      rw [mul_div_cancel₀ _ hw]
    · show _ = _ * ((m.d * p.1 + m.e * p.2 + m.f) / _)
      rw [mul_div_cancel₀ _ hw]

/-- The solution of the equations of the code is the inverse of the one of torchvision -/
theorem homography_inverse {sp ep : List (K × K)} {fwd bwd : Mat K} (hu : ∀ m, Solves sp ep m → m = fwd)
    (hb : Solves ep sp bwd) (hd : bwd.det ≠ 0) (hi : bwd.inv.i ≠ 0)
    (hw : ∀ q ∈ ep, bwd.g * q.1 + bwd.h * q.2 + bwd.i ≠ 0) : fwd = bwd.inv.over bwd.inv.i := by
  refine (hu _ ⟨div_self hi, ?_⟩).symm
  rintro ⟨p, q⟩ hpq
  have hq : q ∈ ep := (List.of_mem_zip hpq).2
  have hqp : (q, p) ∈ ep.zip sp := by
    have : (p, q).swap ∈ (sp.zip ep).map Prod.swap := List.mem_map_of_mem hpq
    rwa [List.zip_swap] at this
  obtain ⟨e1, e2⟩ := hb.2 _ hqp
  have hm : Maps bwd q p := by
    refine ⟨_, hw q hq, ?_, ?_, rfl⟩
    · rw [hb.1]; simp only at e1; linear_combination e1
    · rw [hb.1]; simp only at e2; linear_combination e2
  obtain ⟨l, hl, a1, a2, a3⟩ := hm.inv hd
  simp only [Mat.over]
  generalize bwd.inv = n at *
  have e1 : n.a / n.i * p.1 + n.b / n.i * p.2 + n.c / n.i = (n.a * p.1 + n.b * p.2 + n.c) / n.i := by field_simp
  have e2 : n.d / n.i * p.1 + n.e / n.i * p.2 + n.f / n.i = (n.d * p.1 + n.e * p.2 + n.f) / n.i := by field_simp
  have e3 : n.g / n.i * p.1 + n.h / n.i * p.2 = (n.g * p.1 + n.h * p.2 + n.i) / n.i - 1 := by field_simp; ring
  rw [e1, e2, e3, a1, a2, a3]
  constructor <;> ring

theorem Maps.over {m : Mat K} {q p : K × K} {k : K} (hk : k ≠ 0) (h : Maps m q p) : Maps (m.over k) q p := by
  obtain ⟨l, hl, a1, a2, a3⟩ := h
  refine ⟨l / k, div_ne_zero hl hk, ?_, ?_, ?_⟩
  · show m.a / k * q.1 + m.b / k * q.2 + m.c / k = _
    field_simp; linear_combination a1
  · show m.d / k * q.1 + m.e / k * q.2 + m.f / k = _
    field_simp; linear_combination a2
  · show m.g / k * q.1 + m.h / k * q.2 + m.i / k = _
    field_simp; linear_combination a3

theorem det_over (m : Mat K) {k : K} (hk : k ≠ 0) : (m.over k).det = m.det / k ^ 3 := by
  simp only [Mat.det, Mat.over]; field_simp

theorem det_inv (m : Mat K) (hd : m.det ≠ 0) : m.inv.det = 1 / m.det := by
  have h : m.inv.mul m = Mat.eye := by
    have k1 : m.det * m.det⁻¹ = 1 := mul_inv_cancel₀ hd
    ext <;> simp only [Mat.mul, Mat.inv, Mat.eye, div_eq_mul_inv]
    all_goals (generalize m.det⁻¹ = k at *; unfold Mat.det at k1; first | linear_combination k1 | ring)
  have := det_mul m.inv m
  rw [h, eye_det] at this
  rw [eq_div_iff hd]; exact this.symm

/-- What the proof needs to know of one transform -/
theorem apply_spec {op : Op K} {s : Size} (hh : 0 < s.h) (hw : 0 < s.w) (ho : OkAt op s)
    (hpos : ∀ s' back, tv op s = some (s', back) → 0 < s'.h ∧ 0 < s'.w) :
    (tv op s = none ∧ ∀ m, op.apply m s = none)
    ∨ ∃ s' back A, tv op s = some (s', back) ∧ (∀ m, op.apply m s = some (A.mul m, s')) ∧ A.det ≠ 0
      ∧ (∀ p q, back p = some q → Maps A q p) ∧ (Affine op → IsAffine A ∧ ∀ p, (back p).isSome) := by
  have hwK : (s.w : K) ≠ 0 := Nat.cast_ne_zero.2 hw.ne'
  have hhK : (s.h : K) ≠ 0 := Nat.cast_ne_zero.2 hh.ne'
  cases op with
  | resize target =>
    have hr : resizedSize s target = tvResize s target := by
      refine resizedSize_eq hh hw ?_
      intro n max ht
      subst ht
      exact ho
    simp only [tv, Op.apply, hr]
    cases hn : tvResize s target with
    | none => left; exact ⟨rfl, fun _ => rfl⟩
    | some n =>
      right
      obtain ⟨h1, h2⟩ := hpos n _ (by simp only [tv, hn]; rfl)
      have h1K : (n.h : K) ≠ 0 := Nat.cast_ne_zero.2 h1.ne'
      have h2K : (n.w : K) ≠ 0 := Nat.cast_ne_zero.2 h2.ne'
      refine ⟨n, _, _, rfl, fun m => rfl, ?_, ?_, fun _ => ⟨scale_affine _ _, fun p => rfl⟩⟩
      · rw [scale_det]; exact mul_ne_zero (div_ne_zero h2K hwK) (div_ne_zero h1K hhK)
      · rintro p q h
        cases h
        refine maps_of_affine (scale_affine _ _) ?_ ?_
        · simp only [scale]; field_simp; ring
        · simp only [scale]; field_simp; ring
  | resizedCrop top left height width h w =>
    right
    obtain ⟨h1, h2⟩ := hpos ⟨h, w⟩ _ rfl
    have h1K : (h : K) ≠ 0 := Nat.cast_ne_zero.2 h1.ne'
    have h2K : (w : K) ≠ 0 := Nat.cast_ne_zero.2 h2.ne'
    have h3K : (height : K) ≠ 0 := Nat.cast_ne_zero.2 ho.1.ne'
    have h4K : (width : K) ≠ 0 := Nat.cast_ne_zero.2 ho.2.ne'
    refine ⟨⟨h, w⟩, _, (scale ((w : K) / (width : K)) ((h : K) / (height : K))).mul (translate (-(left : K)) (-(top : K))), rfl,
      fun m => by rw [mul_assoc']; rfl, ?_, ?_, fun _ => ⟨(scale_affine _ _).mul (translate_affine _ _), fun p => rfl⟩⟩
    · rw [det_mul, scale_det, translate_det, mul_one]; exact mul_ne_zero (div_ne_zero h2K h4K) (div_ne_zero h1K h3K)
    · rintro p q hq
      cases hq
      refine maps_of_affine ((scale_affine _ _).mul (translate_affine _ _)) ?_ ?_
      · simp only [scale, translate, Mat.mul]; field_simp; ring
      · simp only [scale, translate, Mat.mul]; field_simp; ring
  | hflip b =>
    right
    cases b with
    | false =>
      refine ⟨s, _, Mat.eye, rfl, fun m => by rw [eye_mul]; rfl, by rw [eye_det]; exact one_ne_zero, ?_, fun _ => ⟨eye_affine, fun p => rfl⟩⟩
      rintro p q hq; cases hq; exact maps_eye p
    | true =>
      refine ⟨s, _, (translate (s.w : K) 0).mul Transform.hflip, rfl, fun m => by rw [mul_assoc']; rfl, ?_, ?_,
        fun _ => ⟨(translate_affine _ _).mul hflip_affine, fun p => rfl⟩⟩
      · rw [det_mul, translate_det, hflip_det]; norm_num
      · rintro p q hq
        cases hq
        refine maps_of_affine ((translate_affine _ _).mul hflip_affine) ?_ ?_
        · simp [Transform.hflip, translate, Mat.mul]
        · simp [Transform.hflip, translate, Mat.mul]
  | vflip b =>
    right
    cases b with
    | false =>
      refine ⟨s, _, Mat.eye, rfl, fun m => by rw [eye_mul]; rfl, by rw [eye_det]; exact one_ne_zero, ?_, fun _ => ⟨eye_affine, fun p => rfl⟩⟩
      rintro p q hq; cases hq; exact maps_eye p
    | true =>
      refine ⟨s, _, (translate 0 (s.h : K)).mul Transform.vflip, rfl, fun m => by rw [mul_assoc']; rfl, ?_, ?_,
        fun _ => ⟨(translate_affine _ _).mul vflip_affine, fun p => rfl⟩⟩
      · rw [det_mul, translate_det, vflip_det]; norm_num
      · rintro p q hq
        cases hq
        refine maps_of_affine ((translate_affine _ _).mul vflip_affine) ?_ ?_
        · simp [Transform.vflip, translate, Mat.mul]
        · simp [Transform.vflip, translate, Mat.mul]
  | rotate cos sin expand =>
    right
    have hn : rotatedSize s cos sin expand = if expand then pilExpand s cos sin else s := by
      cases expand with
      | true => rw [rotatedSize_expand]; rfl
      | false => rfl
    have ho : cos * cos + sin * sin = 1 := ho
    refine ⟨if expand then pilExpand s cos sin else s, _,
      ((translate (((if expand then pilExpand s cos sin else s).w : K) / 2) (((if expand then pilExpand s cos sin else s).h : K) / 2)).mul
        (Transform.rotate cos sin)).mul (translate (-((s.w : K) / 2)) (-((s.h : K) / 2))), rfl,
      fun m => by simp only [Op.apply, hn], ?_, ?_,
      fun _ => ⟨((translate_affine _ _).mul (rotate_affine _ _)).mul (translate_affine _ _), fun p => rfl⟩⟩
    · rw [det_mul, det_mul, translate_det, translate_det, rotate_det, ho]; norm_num
    · rintro p q hq
      cases hq
      generalize (if expand then pilExpand s cos sin else s) = n
      refine maps_of_affine (((translate_affine _ _).mul (rotate_affine _ _)).mul (translate_affine _ _)) ?_ ?_
      · simp only [Transform.rotate, translate, Mat.mul, pilRotate]
        linear_combination (p.1 - (n.w : K) / 2) * ho
      · simp only [Transform.rotate, translate, Mat.mul, pilRotate]
        linear_combination (p.2 - (n.h : K) / 2) * ho
  | randomCrop th tw pad padding i j =>
    have hp : padding = none := ho
    subst hp
    have hpd : ∀ t x, cropPad t pad x = tvPad t pad x := by
      intro t x
      unfold cropPad tvPad
      cases pad with
      | false => simp
      | true =>
        by_cases hx : x < t
        · simp [hx]
        · simp [hx]; omega
    simp only [tv, Op.apply, Option.getD_none, Nat.add_zero, hpd]
    generalize tvPad tw pad s.w = l'
    generalize tvPad th pad s.h = t'
    by_cases hc : s.h + 2 * t' < th ∨ s.w + 2 * l' < tw
    · left; rw [if_pos hc]; exact ⟨rfl, fun m => if_pos hc⟩
    · right
      rw [if_neg hc]
      have hsz : (if pad = true then (⟨th, tw⟩ : Size) else ⟨min th (s.h + 2 * t'), min tw (s.w + 2 * l')⟩) = ⟨th, tw⟩ := by
        cases pad with
        | true => rfl
        | false =>
          show (⟨min th (s.h + 2 * t'), min tw (s.w + 2 * l')⟩ : Size) = _
          congr 1 <;> omega
      have em : ∀ m : Mat K, (if t' = 0 then (if l' = 0 then m else (translate (l' : K) 0).mul m)
          else (translate 0 (t' : K)).mul (if l' = 0 then m else (translate (l' : K) 0).mul m))
          = (translate (l' : K) (t' : K)).mul m := by
        intro m
        have e0 : ∀ n : Mat K, (translate (0 : K) 0).mul n = n := fun n => eye_mul n
        have e1 : ∀ (u v : K) (n : Mat K), (translate 0 v).mul ((translate u 0).mul n) = (translate u v).mul n := by
          intro u v n
          ext <;> simp only [Mat.mul, translate] <;> ring
        by_cases h1 : l' = 0 <;> by_cases h2 : t' = 0
        · simp [h1, h2, e0]
        · simp [h1, h2]
        · simp [h1, h2]
        · simp [h1, h2, e1]
      by_cases hx : s.w + 2 * l' = tw ∧ s.h + 2 * t' = th
      · refine ⟨⟨th, tw⟩, _, translate (l' : K) (t' : K), rfl, fun m => ?_, by rw [translate_det]; exact one_ne_zero, ?_,
          fun _ => ⟨translate_affine _ _, fun p => rfl⟩⟩
        · rw [if_neg hc, if_pos hx, hsz, em]
        · rintro p q hq
          simp only [if_pos hx] at hq
          cases hq
          refine maps_of_affine (translate_affine _ _) ?_ ?_ <;> simp [translate]
      · refine ⟨⟨th, tw⟩, _, (translate (-(j : K)) (-(i : K))).mul (translate (l' : K) (t' : K)), rfl, fun m => ?_,
          by rw [det_mul, translate_det, translate_det]; norm_num, ?_,
          fun _ => ⟨(translate_affine _ _).mul (translate_affine _ _), fun p => rfl⟩⟩
        · rw [if_neg hc, if_neg hx, hsz, em, mul_assoc']
        · rintro p q hq
          simp only [if_neg hx] at hq
          cases hq
          refine maps_of_affine ((translate_affine _ _).mul (translate_affine _ _)) ?_ ?_
          · simp only [translate, Mat.mul]; push_cast; ring
          · simp only [translate, Mat.mul]; push_cast; ring
  | perspective sp ep fwd bwd =>
    right
    obtain ⟨h1, h2, h3, h4, h5, h6⟩ := ho
    have hf := homography_inverse h2 h3 h4 h5 h6
    refine ⟨s, _, fwd, rfl, fun m => rfl, ?_, ?_, fun h => h.elim⟩
    · rw [hf, det_over _ h5, det_inv _ h4]
      exact div_ne_zero (one_div_ne_zero h4) (pow_ne_zero _ h5)
    · intro p q hq
      rw [hf]
      exact ((proj_maps hq).inv h4).over h5
  | noPerspective =>
    right
    refine ⟨s, _, Mat.eye, rfl, fun m => by rw [eye_mul]; rfl, by rw [eye_det]; exact one_ne_zero, ?_, fun _ => ⟨eye_affine, fun p => rfl⟩⟩
    rintro p q hq; cases hq; exact maps_eye p
  | centerCrop th tw =>
    right
    have e1 : centerShift tw s.w = tvCenter tw s.w := by rw [centerShift_eq, if_neg ho.2, add_zero]
    have e2 : centerShift th s.h = tvCenter th s.h := by rw [centerShift_eq, if_neg ho.1, add_zero]
    refine ⟨⟨th, tw⟩, _, translate (centerShift tw s.w : K) (centerShift th s.h : K), rfl, fun m => rfl,
      by rw [translate_det]; exact one_ne_zero, ?_, fun _ => ⟨translate_affine _ _, fun p => rfl⟩⟩
    rintro p q hq
    cases hq
    rw [e1, e2]
    refine maps_of_affine (translate_affine _ _) ?_ ?_ <;> simp [translate]

/-! ## Lists of transforms -/

theorem okAll_pos {ops : List (Op K)} {s : Size} (h : OkAll ops s) : 0 < s.h ∧ 0 < s.w := by
  cases ops with
  | nil => exact h
  | cons op ops => exact ⟨h.1, h.2.1⟩

theorem merge_spec {ops : List (Op K)} {s : Size} (h : OkAll ops s) :
    (tvSize ops s = none ∧ ∀ m, mergeFrom ops m s = none)
    ∨ ∃ A d, tvSize ops s = some d ∧ (∀ m, mergeFrom ops m s = some (A.mul m, d)) ∧ A.det ≠ 0
      ∧ (∀ p q, follow ops s p = some q → Maps A q p) ∧ 0 < d.h ∧ 0 < d.w
      ∧ ((∀ op ∈ ops, Affine op) → IsAffine A ∧ ∀ p, (follow ops s p).isSome) := by
  induction ops generalizing s with
  | nil =>
    right
    refine ⟨Mat.eye, s, rfl, fun m => by rw [eye_mul]; rfl, by rw [eye_det]; exact one_ne_zero, ?_, h.1, h.2,
      fun _ => ⟨eye_affine, fun p => rfl⟩⟩
    intro p q hq; cases hq; exact maps_eye p
  | cons op ops ih =>
    obtain ⟨hh, hw, ho, hrest⟩ := h
    rcases apply_spec hh hw ho (fun s' back ht => okAll_pos (hrest s' back ht)) with ⟨h1, h2⟩ | ⟨s', back, A, h1, h2, h3, h4, h5⟩
    · left
      refine ⟨by simp only [tvSize, h1], fun m => by simp only [mergeFrom, h2]⟩
    · rcases ih (hrest s' back h1) with ⟨g1, g2⟩ | ⟨B, d, g1, g2, g3, g4, g5, g6, g7⟩
      · left
        exact ⟨by simp only [tvSize, h1, g1], fun m => by simp only [mergeFrom, h2, g2]⟩
      · right
        refine ⟨B.mul A, d, by simp only [tvSize, h1, g1], fun m => by simp only [mergeFrom, h2, g2, mul_assoc'],
          by rw [det_mul]; exact mul_ne_zero g3 h3, ?_, g5, g6, ?_⟩
        · intro p q hq
          simp only [follow, h1] at hq
          rw [Option.bind_eq_some_iff] at hq
          obtain ⟨r, hr, hq⟩ := hq
          exact (h4 r q hq).mul (g4 p r hr)
        · intro ha
          obtain ⟨a1, a2⟩ := h5 (ha op (List.mem_cons_self ..))
          obtain ⟨b1, b2⟩ := g7 (fun o ho => ha o (List.mem_cons_of_mem _ ho))
          refine ⟨b1.mul a1, fun p => ?_⟩
          simp only [follow, h1]
          obtain ⟨r, hr⟩ := Option.isSome_iff_exists.1 (b2 p)
          rw [hr]
          exact a2 r

/-- The inverse of the matrix can be scaled to have the last entry 1, and its last row is not mistaken for that of an affine map -/
def Fine (m : Mat K) : Prop :=
  m.inv.i ≠ 0 ∧ (close (m.inv.over m.inv.i) → m.inv.g = 0 ∧ m.inv.h = 0)

theorem fine_of_affine {m : Mat K} (h : IsAffine m) (hd : m.det ≠ 0) : Fine m := by
  have := h.inv hd
  refine ⟨by rw [this.2.2]; exact one_ne_zero, fun _ => ⟨this.1, this.2.1⟩⟩

theorem pilSample_of_maps {m : Mat K} {q p : K × K} (hd : m.det ≠ 0) (hf : Fine m) (h : Maps m q p) : pilSample m p = some q := by
  obtain ⟨hi, hc⟩ := hf
  obtain ⟨l, hl, a1, a2, a3⟩ := (h.inv hd).over hi
  have hii : (m.inv.over m.inv.i).i = 1 := div_self hi
  unfold pilSample
  rw [if_neg hd, if_neg hi]
  simp only
  by_cases hcl : close (m.inv.over m.inv.i)
  · obtain ⟨hg, hh⟩ := hc hcl
    have hl1 : l = 1 := by
      rw [← a3, hii]
      simp [Mat.over, hg, hh]
    subst hl1
    rw [if_pos hcl, a1, a2]
    simp
  · rw [if_neg hcl]
    rw [hii] at a3
    rw [a3, if_neg hl, a1, a2, mul_div_cancel_left₀ _ hl, mul_div_cancel_left₀ _ hl]

/-- **C50** The image has the size it has after applying the transforms one after another (and there is an error exactly when one of them fails). -/
theorem C50_size {ops : List (Op K)} {s : Size} (h : OkAll ops s) : (merge ops s).map (·.2) = tvSize ops s := by
  unfold merge
  rcases merge_spec h with ⟨h1, h2⟩ | ⟨A, d, h1, h2, _⟩
  · rw [h1, h2]; rfl
  · rw [h1, h2]; rfl

/-- **C50** Without perspective: the point of the original that the merged transform shows at a point is exactly the one found by following the
transforms backwards. -/
theorem C50_affine {ops : List (Op K)} {s d : Size} {m : Mat K} (h : OkAll ops s) (ha : ∀ op ∈ ops, Affine op)
    (hm : merge ops s = some (m, d)) (p : K × K) :
    pilSample m p = follow ops s p ∧ (follow ops s p).isSome := by
  rcases merge_spec h with ⟨h1, h2⟩ | ⟨A, d', h1, h2, h3, h4, _, _, h5⟩
  · unfold merge at hm; rw [h2] at hm; cases hm
  · unfold merge at hm
    rw [h2, mul_eye] at hm
    cases hm
    obtain ⟨b1, b2⟩ := h5 ha
    obtain ⟨q, hq⟩ := Option.isSome_iff_exists.1 (b2 p)
    rw [hq, pilSample_of_maps h3 (fine_of_affine b1 h3) (h4 p q hq)]
    exact ⟨rfl, rfl⟩

/-- **C50** (partial) With perspective: the same, for the points that can be followed. Missing: matrices whose inverse has a last entry 0, or a last
row so small that it is taken for that of an affine map. -/
theorem C50_perspective_partial {ops : List (Op K)} {s d : Size} {m : Mat K} (h : OkAll ops s)
    (hm : merge ops s = some (m, d)) (hf : Fine m) (p q : K × K) (hq : follow ops s p = some q) : pilSample m p = some q := by
  rcases merge_spec h with ⟨h1, h2⟩ | ⟨A, d', h1, h2, h3, h4, _, _, h5⟩
  · unfold merge at hm; rw [h2] at hm; cases hm
  · unfold merge at hm
    rw [h2, mul_eye] at hm
    cases hm
    exact pilSample_of_maps h3 hf (h4 p q hq)

theorem shown_follow {ops : List (Op K)} {s : Size} {p q : K × K} (h : shown ops s p = some q) :
    follow ops s p = some q ∧ inBox s q ∧ ∃ d, tvSize ops s = some d ∧ inBox d p := by
  induction ops generalizing s q with
  | nil =>
    unfold shown at h
    by_cases hb : inBox s p
    · rw [if_pos hb] at h; cases h; exact ⟨rfl, hb, s, rfl, hb⟩
    · rw [if_neg hb] at h; cases h
  | cons op ops ih =>
    unfold shown at h
    unfold follow tvSize
    cases ht : tv op s with
    | none => rw [ht] at h; cases h
    | some v =>
      obtain ⟨s', back⟩ := v
      rw [ht] at h
      simp only at h ⊢
      cases hr : (shown ops s' p).bind back with
      | none => rw [hr] at h; cases h
      | some r =>
        rw [hr] at h
        simp only at h
        by_cases hb : inBox s r
        · rw [if_pos hb] at h
          cases h
          rw [Option.bind_eq_some_iff] at hr
          obtain ⟨t, h1, h2⟩ := hr
          obtain ⟨i1, _, i3⟩ := ih h1
          rw [i1]
          exact ⟨h2, hb, i3⟩
        · rw [if_neg hb] at h; cases h

/-- **C50** (partial) Wherever applying the transforms one after another shows a point of the original, the merged transform shows the same point.
Missing: where one after another shows the fill colour, because the point had been cut off by one of the transforms, the merged transform may
show a point of the original, see `C50_violated_reveal`. -/
theorem C50_shown_partial {ops : List (Op K)} {s : Size} (h : OkAll ops s)
    (hf : (∀ op ∈ ops, Affine op) ∨ ∀ m d, merge ops s = some (m, d) → Fine m) {p q : K × K}
    (hs : shown ops s p = some q) : mergedShown ops s p = some q := by
  obtain ⟨h1, h2, d, h3, h4⟩ := shown_follow hs
  have hsz := C50_size h
  rw [h3] at hsz
  rw [Option.map_eq_some_iff] at hsz
  obtain ⟨⟨m, d'⟩, hm, rfl⟩ := hsz
  have hp : pilSample m p = some q := by
    rcases hf with ha | hf
    · rw [(C50_affine h ha hm p).1, h1]
    · exact C50_perspective_partial h hm (hf m _ hm) p q h1
  unfold mergedShown
  rw [hm]
  simp only
  rw [if_pos h4, hp]
  simp only
  rw [if_pos h2]

/-- **C50** … and nothing is shown that comes from elsewhere: without perspective, a point of the original shown by the merged transform is the one
found by following the transforms backwards. -/
theorem C50_shown_only {ops : List (Op K)} {s : Size} (h : OkAll ops s) (ha : ∀ op ∈ ops, Affine op) {p q : K × K}
    (hs : mergedShown ops s p = some q) : follow ops s p = some q ∧ inBox s q := by
  unfold mergedShown at hs
  cases hm : merge ops s with
  | none => rw [hm] at hs; cases hs
  | some v =>
    obtain ⟨m, d⟩ := v
    rw [hm] at hs
    simp only at hs
    rw [(C50_affine h ha hm p).1] at hs
    split at hs
    · split at hs
      · cases hs
      · rename_i r hr
        split at hs
        · rename_i hb; cases hs; exact ⟨hr, hb⟩
        · cases hs
    · cases hs

/-- **C50** The perspective maps each corner point to the one it is drawn to. -/
theorem C50_corners {sp ep : List (K × K)} {m : Mat K} (h : Solves sp ep m) {p q : K × K} (hpq : (p, q) ∈ sp.zip ep)
    (hw : m.g * p.1 + m.h * p.2 + 1 ≠ 0) : proj m p = some q := by
  obtain ⟨e1, e2⟩ := h.2 _ hpq
  simp only at e1 e2
  unfold proj
  rw [h.1]
  simp only
  rw [if_neg hw]
  have f1 : m.a * p.1 + m.b * p.2 + m.c = q.1 * (m.g * p.1 + m.h * p.2 + 1) := by linear_combination e1
  have f2 : m.d * p.1 + m.e * p.2 + m.f = q.2 * (m.g * p.1 + m.h * p.2 + 1) := by linear_combination e2
  rw [f1, f2, mul_div_cancel_right₀ _ hw, mul_div_cancel_right₀ _ hw]

/-- **C50** Tensors, without perspective: each output pixel shows the point found by following the transforms backwards from its centre. -/
theorem C50_tensor {ops : List (Op K)} {s d : Size} {m : Mat K} (h : OkAll ops s) (ha : ∀ op ∈ ops, Affine op)
    (hm : merge ops s = some (m, d)) (x y : Nat) :
    tensorSample m s d x y = follow ops s ((x : K) + 1 / 2, (y : K) + 1 / 2) := by
  obtain ⟨hsh, hsw⟩ := okAll_pos h
  rcases merge_spec h with ⟨h1, h2⟩ | ⟨A, d', h1, h2, h3, h4, hdh, hdw, h5⟩
  · unfold merge at hm; rw [h2] at hm; cases hm
  · unfold merge at hm
    rw [h2, mul_eye] at hm
    cases hm
    obtain ⟨b1, b2⟩ := h5 ha
    obtain ⟨q, hq⟩ := Option.isSome_iff_exists.1 (b2 ((x : K) + 1 / 2, (y : K) + 1 / 2))
    rw [hq]
    have hmap := h4 _ q hq
    have n1 : (s.w : K) ≠ 0 := Nat.cast_ne_zero.2 hsw.ne'
    have n2 : (s.h : K) ≠ 0 := Nat.cast_ne_zero.2 hsh.ne'
    have n3 : (d.w : K) ≠ 0 := Nat.cast_ne_zero.2 hdw.ne'
    have n4 : (d.h : K) ≠ 0 := Nat.cast_ne_zero.2 hdh.ne'
    have n5 : (2 : K) ≠ 0 := two_ne_zero
    have haff : IsAffine (normalised m s d) :=
      (((((translate_affine _ _).mul (scale_affine _ _)).mul b1).mul (scale_affine _ _)).mul (translate_affine _ _))
    have hdet : (normalised m s d).det ≠ 0 := by
      unfold normalised
      simp only [det_mul, translate_det, scale_det, one_mul, mul_one]
      exact mul_ne_zero (mul_ne_zero (mul_ne_zero (div_ne_zero n5 n3) (div_ne_zero n5 n4)) h3)
        (mul_ne_zero (div_ne_zero n1 n5) (div_ne_zero n2 n5))
    have hmaps : Maps (normalised m s d) (q.1 * 2 / (s.w : K) - 1, q.2 * 2 / (s.h : K) - 1) (gridCentre x d.w, gridCentre y d.h) := by
      unfold normalised
      refine Maps.mul (r := (q.1 * 2 / (s.w : K), q.2 * 2 / (s.h : K))) ?_ (Maps.mul (r := q) ?_ (Maps.mul hmap ?_))
      · refine maps_of_affine (translate_affine _ _) ?_ ?_ <;> simp [translate]
      · refine maps_of_affine (scale_affine _ _) ?_ ?_ <;> simp only [scale] <;> field_simp <;> ring
      · refine maps_of_affine ((translate_affine _ _).mul (scale_affine _ _)) ?_ ?_ <;>
          simp only [translate, scale, Mat.mul, gridCentre] <;> field_simp <;> ring
    have hinv := (hmaps.inv hdet).affine (haff.inv hdet)
    have hcl : close (normalised m s d).inv := by
      have := haff.inv hdet
      unfold close
      rw [this.1, this.2.1, abs_zero]
      have : (0 : K) ≤ 1 / 10 ^ 8 := by positivity
      exact ⟨this, this⟩
    unfold tensorSample
    simp only
    rw [if_neg hdet, if_pos hcl, hinv.1, hinv.2]
    simp only
    congr 1
    ext
    · show (q.1 * 2 / (s.w : K) - 1 + 1) * (s.w : K) / 2 = q.1
      field_simp; ring
    · show (q.2 * 2 / (s.h : K) - 1 + 1) * (s.h : K) / 2 = q.2
      field_simp; ring

/-- **C50** (partial) Tensors with a perspective: the pixel in column `x` and row `y` shows what is found by following the transforms backwards from
the point `(x·W/(W-1), y·H/(H-1))` (and not from its centre, see `C50_violated_tensor`), if the map is not taken for an affine one. So the pixels in the
corners show the corners of the image, and nothing is shifted by more than half a pixel. Missing: the centres. -/
theorem C50_tensor_perspective_partial {ops : List (Op K)} {s d : Size} {m : Mat K} (h : OkAll ops s)
    (hm : merge ops s = some (m, d)) (hcl : ¬ close (normalised m s d).inv) (hw2 : 2 ≤ d.w) (hh2 : 2 ≤ d.h) (x y : Nat) (q : K × K)
    (hq : follow ops s ((x : K) * (d.w : K) / ((d.w : K) - 1), (y : K) * (d.h : K) / ((d.h : K) - 1)) = some q) :
    tensorSample m s d x y = some q := by
  obtain ⟨hsh, hsw⟩ := okAll_pos h
  rcases merge_spec h with ⟨h1, h2⟩ | ⟨A, d', h1, h2, h3, h4, hdh, hdw, h5⟩
  · unfold merge at hm; rw [h2] at hm; cases hm
  · unfold merge at hm
    rw [h2, mul_eye] at hm
    cases hm
    have hmap := h4 _ q hq
    have n1 : (s.w : K) ≠ 0 := Nat.cast_ne_zero.2 hsw.ne'
    have n2 : (s.h : K) ≠ 0 := Nat.cast_ne_zero.2 hsh.ne'
    have n3 : (d.w : K) ≠ 0 := Nat.cast_ne_zero.2 hdw.ne'
    have n4 : (d.h : K) ≠ 0 := Nat.cast_ne_zero.2 hdh.ne'
    have n5 : (2 : K) ≠ 0 := two_ne_zero
    have n6 : (d.w : K) - 1 ≠ 0 := by
      rw [sub_ne_zero]; exact_mod_cast (by omega : d.w ≠ 1)
    have n7 : (d.h : K) - 1 ≠ 0 := by
      rw [sub_ne_zero]; exact_mod_cast (by omega : d.h ≠ 1)
    have hdet : (normalised m s d).det ≠ 0 := by
      unfold normalised
      simp only [det_mul, translate_det, scale_det, one_mul, mul_one]
      exact mul_ne_zero (mul_ne_zero (mul_ne_zero (div_ne_zero n5 n3) (div_ne_zero n5 n4)) h3)
        (mul_ne_zero (div_ne_zero n1 n5) (div_ne_zero n2 n5))
    have hmaps : Maps (normalised m s d) (q.1 * 2 / (s.w : K) - 1, q.2 * 2 / (s.h : K) - 1) (linspace x d.w, linspace y d.h) := by
      unfold normalised
      refine Maps.mul (r := (q.1 * 2 / (s.w : K), q.2 * 2 / (s.h : K))) ?_ (Maps.mul (r := q) ?_ (Maps.mul hmap ?_))
      · refine maps_of_affine (translate_affine _ _) ?_ ?_ <;> simp [translate]
      · refine maps_of_affine (scale_affine _ _) ?_ ?_ <;> simp only [scale] <;> field_simp <;> ring
      · refine maps_of_affine ((translate_affine _ _).mul (scale_affine _ _)) ?_ ?_ <;>
          simp only [translate, scale, Mat.mul, linspace]
        · rw [if_neg (by omega : d.w ≠ 1)]
          field_simp; ring
        · rw [if_neg (by omega : d.h ≠ 1)]
          field_simp; ring
    obtain ⟨l, hl, a1, a2, a3⟩ := hmaps.inv hdet
    unfold tensorSample
    simp only at a1 a2 a3 ⊢
    rw [if_neg hdet, if_neg hcl, a3, if_neg hl, a1, a2, mul_div_cancel_left₀ _ hl, mul_div_cancel_left₀ _ hl]
    congr 1
    ext
    · show (q.1 * 2 / (s.w : K) - 1 + 1) * (s.w : K) / 2 = q.1
      field_simp; ring
    · show (q.2 * 2 / (s.h : K) - 1 + 1) * (s.h : K) / 2 = q.2
      field_simp; ring

/-- **C50** A flip with probability 0 never happens, with probability 1 always (a draw lies in `[0, 1)`). -/
theorem C50_flip_chance (r : K) (h0 : 0 ≤ r) (h1 : r < 1) : flips r 0 = false ∧ flips r 1 = true := by
  simp [flips, h0, h1]

end

/-! ## Violations and examples -/

/-- **C50** is violated: cutting out the middle and then padding back shows the parts that had been cut off. -/
theorem C50_violated_reveal :
    let ops : List (Op ℚ) := [.centerCrop 2 2, .centerCrop 4 4]
    shown ops ⟨4, 4⟩ (1 / 2, 1 / 2) = none ∧ mergedShown ops ⟨4, 4⟩ (1 / 2, 1 / 2) = some (1 / 2, 1 / 2) := by
  decide +kernel

/-- **C50** is violated for a center crop that pads by 3 pixels: the image is put one pixel too far to the right and down. -/
theorem C50_violated_center :
    let ops : List (Op ℚ) := [.centerCrop 4 4]
    shown ops ⟨1, 1⟩ (3 / 2, 3 / 2) = some (1 / 2, 1 / 2) ∧ mergedShown ops ⟨1, 1⟩ (3 / 2, 3 / 2) = none
      ∧ mergedShown ops ⟨1, 1⟩ (5 / 2, 5 / 2) = some (1 / 2, 1 / 2) := by
  decide +kernel

/-- **C50** is violated for a random crop with `padding`: it is ignored; here torchvision returns the padded image, the merged transform fails. -/
theorem C50_violated_padding :
    let ops : List (Op ℚ) := [.randomCrop 4 4 false (some (1, 1, 1, 1)) 0 0]
    tvSize ops ⟨2, 2⟩ = some ⟨4, 4⟩ ∧ (merge ops ⟨2, 2⟩).isNone := by
  decide +kernel

/-- **C50** is violated for a perspective with probability 0: it is applied if the draw is 0. -/
theorem C50_violated_chance : ∃ r : ℚ, 0 ≤ r ∧ r < 1 ∧ perspectives r 0 = true := ⟨0, by decide +kernel⟩

/-- A perspective on an image of 4 × 4 pixels: the lower right corner moves inwards -/
def examplePerspective : Op ℚ :=
  .perspective [(0, 0), (3, 0), (3, 3), (0, 3)] [(0, 0), (3, 0), (2, 2), (0, 3)]
    ⟨2, 0, 0, 0, 2, 0, 1 / 3, 1 / 3, 1⟩ ⟨1 / 2, 0, 0, 0, 1 / 2, 0, -1 / 6, -1 / 6, 1⟩

theorem example_ok : OkAt examplePerspective ⟨4, 4⟩ := by
  refine ⟨⟨rfl, ?_⟩, ?_, ⟨rfl, ?_⟩, ?_, ?_, ?_⟩
  · decide +kernel
  · rintro m ⟨hi, h⟩
    have h1 := h ((0, 0), (0, 0)) (by decide +kernel)
    have h2 := h ((3, 0), (3, 0)) (by decide +kernel)
    have h3 := h ((3, 3), (2, 2)) (by decide +kernel)
    have h4 := h ((0, 3), (0, 3)) (by decide +kernel)
    simp only at h1 h2 h3 h4
    obtain ⟨a1, a2⟩ := h1
    obtain ⟨b1, b2⟩ := h2
    obtain ⟨c1, c2⟩ := h3
    obtain ⟨d1, d2⟩ := h4
    ext <;> simp only <;> linarith
  · decide +kernel
  · decide +kernel
  · decide +kernel
  · decide +kernel

/-- The hypotheses of the theorems hold for a list of transforms with a perspective, and the merged transform of a PIL image is right -/
example :
    let ops : List (Op ℚ) := [.hflip true, examplePerspective, .resize (.short 8 (some 20)), .centerCrop 6 6]
    OkAll ops ⟨4, 4⟩ ∧ (∃ m, merge ops ⟨4, 4⟩ = some (m, ⟨6, 6⟩) ∧ Fine m)
      ∧ shown ops ⟨4, 4⟩ (1, 1) = some (13 / 4, 3 / 4) ∧ mergedShown ops ⟨4, 4⟩ (1, 1) = some (13 / 4, 3 / 4) := by
  refine ⟨?_, ?_, ?_, ?_⟩
  · refine ⟨by decide, by decide, trivial, ?_⟩
    rintro s1 b1 h1
    cases h1
    refine ⟨by decide, by decide, example_ok, ?_⟩
    rintro s2 b2 h2
    cases h2
    refine ⟨by decide, by decide, ⟨by decide, by rintro m ⟨⟩; decide⟩, ?_⟩
    rintro s3 b3 h3
    cases h3
    refine ⟨by decide, by decide, ⟨by decide, by decide⟩, ?_⟩
    rintro s4 b4 h4
    cases h4
    exact ⟨by decide, by decide⟩
  · refine ⟨((merge [.hflip true, examplePerspective, .resize (.short 8 (some 20)), .centerCrop 6 6] ⟨4, 4⟩).getD (Mat.eye, ⟨0, 0⟩)).1, ?_, ?_, ?_⟩
    · decide +kernel
    · decide +kernel
    · decide +kernel
  · decide +kernel
  · decide +kernel

/-- … and for affine transforms, with a rotation by the angle of a 3-4-5 triangle -/
example :
    let ops : List (Op ℚ) := [.rotate (3 / 5) (4 / 5) true, .vflip true, .randomCrop 20 20 true none 1 2, .resizedCrop 1 1 8 8 4 4]
    OkAll ops ⟨5, 10⟩ ∧ (∀ op ∈ ops, Affine op) ∧ tvSize ops ⟨5, 10⟩ = some ⟨4, 4⟩ := by
  refine ⟨?_, ?_, ?_⟩
  · refine ⟨by decide, by decide, (by norm_num : (3 / 5 : ℚ) * (3 / 5) + (4 / 5) * (4 / 5) = 1), ?_⟩
    rintro s1 b1 h1
    have e : s1 = ⟨11, 10⟩ := by
      have := congrArg (Option.map Prod.fst) h1
      rw [show Option.map Prod.fst (tv (Op.rotate (3 / 5 : ℚ) (4 / 5) true) ⟨5, 10⟩) = some ⟨11, 10⟩ by decide +kernel] at this
      exact (Option.some.inj this).symm
    subst e
    refine ⟨by decide, by decide, trivial, ?_⟩
    rintro s2 b2 h2
    cases h2
    refine ⟨by decide, by decide, rfl, ?_⟩
    rintro s3 b3 h3
    cases h3
    refine ⟨by decide, by decide, ⟨by decide, by decide⟩, ?_⟩
    rintro s4 b4 h4
    cases h4
    exact ⟨by decide, by decide⟩
  · intro op h
    simp only [List.mem_cons, List.not_mem_nil, or_false] at h
    rcases h with rfl | rfl | rfl | rfl <;> trivial
  · decide +kernel

/-- **C50** is violated for tensors with a perspective: the first pixel does not show what is found from its centre (as for PIL images), but what is
found from the corner of the image. -/
theorem C50_violated_tensor :
    ∃ m : Mat ℚ, merge [examplePerspective] ⟨4, 4⟩ = some (m, ⟨4, 4⟩)
      ∧ follow [examplePerspective] ⟨4, 4⟩ (1 / 2, 1 / 2) = some (3 / 10, 3 / 10)
      ∧ pilSample m (1 / 2, 1 / 2) = some (3 / 10, 3 / 10)
      ∧ tensorSample m ⟨4, 4⟩ ⟨4, 4⟩ 0 0 = some (0, 0) := by
  refine ⟨_, rfl, ?_, ?_, ?_⟩ <;> decide +kernel

/-- The hypotheses of `C50_tensor_perspective_partial` are met, and the last pixel shows the opposite corner -/
example : ∃ m : Mat ℚ, merge [examplePerspective] ⟨4, 4⟩ = some (m, ⟨4, 4⟩) ∧ ¬ close (normalised m ⟨4, 4⟩ ⟨4, 4⟩).inv
    ∧ (follow [examplePerspective] ⟨4, 4⟩ ((3 : ℚ) * 4 / (4 - 1), (3 : ℚ) * 4 / (4 - 1))).isSome := by
  refine ⟨_, rfl, ?_, ?_⟩ <;> decide +kernel

/-! ## Interpolation and fill value -/

theorem common_spec {V : Type} [DecidableEq V] (l : List (Option V)) (acc : Option V) :
    (∀ r, common l acc = some r ↔
      ((∀ v w, (some v ∈ l ∨ acc = some v) → (some w ∈ l ∨ acc = some w) → v = w)
        ∧ (∀ v, r = some v → some v ∈ l ∨ acc = some v) ∧ (r = none → acc = none ∧ ∀ v, some v ∉ l))) := by
  induction l generalizing acc with
  | nil =>
    intro r
    simp only [common, List.not_mem_nil, false_or]
    constructor
    · intro h
      cases h
      refine ⟨fun v w h1 h2 => ?_, fun v h => h, fun h => ⟨h, fun v h => h⟩⟩
      rw [h1] at h2; cases h2; rfl
    · rintro ⟨_, h2, h3⟩
      cases r with
      | none => rw [(h3 rfl).1]
      | some v => rw [h2 v rfl]
  | cons o l ih =>
    intro r
    cases o with
    | none => simp only [common, ih]; simp
    | some v =>
      simp only [common]
      cases acc with
      | none =>
        simp only [Option.getD_none]
        rw [if_neg (by simp), ih]
        constructor
        · rintro ⟨h1, h2, h3⟩
          refine ⟨?_, ?_, ?_⟩
          · intro x y hx hy
            refine h1 x y ?_ ?_
            · simp only [List.mem_cons, Option.some.injEq, reduceCtorEq, or_false] at hx
              rcases hx with rfl | hx
              · exact Or.inr rfl
              · exact Or.inl hx
            · simp only [List.mem_cons, Option.some.injEq, reduceCtorEq, or_false] at hy
              rcases hy with rfl | hy
              · exact Or.inr rfl
              · exact Or.inl hy
          · intro x hx
            rcases h2 x hx with h | h
            · exact Or.inl (List.mem_cons_of_mem _ h)
            · cases h; exact Or.inl (List.mem_cons_self ..)
          · intro hr; exact absurd (h3 hr).1 (by simp)
        · rintro ⟨h1, h2, h3⟩
          refine ⟨?_, ?_, ?_⟩
          · intro x y hx hy
            refine h1 x y (Or.inl ?_) (Or.inl ?_)
            · rcases hx with h | h
              · exact List.mem_cons_of_mem _ h
              · cases h; exact List.mem_cons_self ..
            · rcases hy with h | h
              · exact List.mem_cons_of_mem _ h
              · cases h; exact List.mem_cons_self ..
          · intro x hx
            rcases h2 x hx with h | h
            · rcases List.mem_cons.1 h with h | h
              · cases h; exact Or.inr rfl
              · exact Or.inl h
            · cases h
          · intro hr; exact absurd (List.mem_cons_self ..) ((h3 hr).2 v)
      | some a =>
        simp only [Option.getD_some]
        by_cases hva : v = a
        · subst hva
          rw [if_neg (by simp), ih]
          simp only [List.mem_cons, Option.some.injEq, reduceCtorEq, false_and]
          constructor
          · rintro ⟨h1, h2, h3⟩
            refine ⟨fun x y hx hy => h1 x y ?_ ?_, fun x hx => ?_, h3⟩
            · rcases hx with (rfl | h) | h
              · exact Or.inr rfl
              · exact Or.inl h
              · exact Or.inr h
            · rcases hy with (rfl | h) | h
              · exact Or.inr rfl
              · exact Or.inl h
              · exact Or.inr h
            · rcases h2 x hx with h | h
              · exact Or.inl (Or.inr h)
              · exact Or.inr h
          · rintro ⟨h1, h2, h3⟩
            refine ⟨fun x y hx hy => h1 x y ?_ ?_, fun x hx => ?_, h3⟩
            · rcases hx with h | h
              · exact Or.inl (Or.inr h)
              · exact Or.inr h
            · rcases hy with h | h
              · exact Or.inl (Or.inr h)
              · exact Or.inr h
            · rcases h2 x hx with (rfl | h) | h
              · exact Or.inr rfl
              · exact Or.inl h
              · exact Or.inr h
        · rw [if_pos hva]
          constructor
          · intro h; cases h
          · rintro ⟨h1, _, _⟩
            exact absurd (h1 v a (Or.inl (List.mem_cons_self ..)) (Or.inr rfl)) hva

/-- **C63** The transforms are merged exactly if all interpolation modes given by them agree, and all fill values given agree; then this mode
(bilinear if none is given) and this value are used. -/
theorem C63_common {V F : Type} [DecidableEq V] [DecidableEq F] (bilinear : V) (is : List (Option V)) (fs : List (Option F))
    (i : V) (f : Option F) :
    construct bilinear is fs = some (i, f) ↔
      (∀ v w, some v ∈ is → some w ∈ is → v = w) ∧ (∀ v w, some v ∈ fs → some w ∈ fs → v = w)
      ∧ (some i ∈ is ∨ (i = bilinear ∧ ∀ v, some v ∉ is))
      ∧ ((∃ v, f = some v ∧ some v ∈ fs) ∨ (f = none ∧ ∀ v, some v ∉ fs)) := by
  have hi := common_spec is none
  have hf := common_spec fs none
  simp only [reduceCtorEq, or_false, true_and] at hi hf
  unfold construct
  constructor
  · intro h
    cases hcf : common fs none with
    | none => rw [hcf] at h; simp at h
    | some f' =>
      cases hci : common is none with
      | none => rw [hcf, hci] at h; simp at h
      | some i' =>
        rw [hcf, hci] at h
        simp only [Option.some.injEq, Prod.mk.injEq] at h
        obtain ⟨h1, h2⟩ := h
        subst h2
        obtain ⟨a1, a2, a3⟩ := (hf _).1 hcf
        obtain ⟨b1, b2, b3⟩ := (hi _).1 hci
        refine ⟨b1, a1, ?_, ?_⟩
        · cases i' with
          | none => right; exact ⟨h1.symm, b3 rfl⟩
          | some v => left; rw [← h1]; exact b2 v rfl
        · cases f' with
          | none => right; exact ⟨rfl, a3 rfl⟩
          | some v => left; exact ⟨v, rfl, a2 v rfl⟩
  · rintro ⟨h1, h2, h3, h4⟩
    have e1 : common fs none = some f := by
      rw [hf]
      refine ⟨h2, ?_, ?_⟩
      · rintro v rfl
        rcases h4 with ⟨w, hw, h⟩ | ⟨h, _⟩
        · cases hw; exact h
        · cases h
      · rintro rfl
        rcases h4 with ⟨w, hw, _⟩ | ⟨_, h⟩
        · cases hw
        · exact h
    rw [e1]
    rcases h3 with h3 | ⟨rfl, h3⟩
    · have e2 : common is none = some (some i) := by
        rw [hi]
        exact ⟨h1, by rintro v ⟨⟩; exact h3, by rintro ⟨⟩⟩
      rw [e2]; rfl
    · have e2 : common is none = some none := by
        rw [hi]
        exact ⟨h1, by rintro v ⟨⟩, fun _ => h3⟩
      rw [e2]; rfl

example : construct "bilinear" [none, some "nearest", none, some "nearest"] [some 0, none] = some ("nearest", some 0)
    ∧ construct "bilinear" [some "nearest", some "bicubic"] [some 0, none] = none := by decide +kernel

/-! ## Boxes of the random resized crop -/

theorem roundHalfEven_le {x : ℚ} {n : ℤ} (h : x ≤ n) : roundHalfEven x ≤ n := by
  have h1 := abs_le.1 (roundHalfEven_err x)
  by_contra hc
  push Not at hc
  have : (n : ℚ) + 1 ≤ (roundHalfEven x : ℚ) := by exact_mod_cast hc
  have hx : x = n ∨ x < n := by rcases h.lt_or_eq with h | h <;> simp [h]
  rcases hx with rfl | hx
  · rw [roundHalfEven_int] at hc; exact lt_irrefl _ hc
  · linarith [h1.2]

theorem roundHalfEven_nonneg {x : ℚ} (h : 0 ≤ x) : 0 ≤ roundHalfEven x := by
  have h1 := abs_le.1 (roundHalfEven_err x)
  by_contra hc
  push Not at hc
  have : (roundHalfEven x : ℚ) ≤ -1 := by exact_mod_cast (by omega : roundHalfEven x ≤ -1)
  linarith [h1.1]

/-- **C64** (partial) The box of the random resized crop lies in the image, for every draw (the offsets are drawn from the ranges of the code) and
every range of ratios. Missing: it has pixels, see `C64_violated`. -/
theorem C64_inside_partial (s : Size) (hh : 0 < s.h) (rmin rmax : ℚ) (h0 : 0 < rmin) (h1 : rmin ≤ rmax) (ts : List Try)
    (hts : ∀ t ∈ ts, 0 < t.h → t.h ≤ s.h → 0 < t.w → t.w ≤ s.w → (t.i : ℤ) ≤ s.h - t.h ∧ (t.j : ℤ) ≤ s.w - t.w)
    (top left height width : ℤ) (h : cropParams s rmin rmax ts = (top, left, height, width)) :
    0 ≤ top ∧ 0 ≤ left ∧ 0 ≤ height ∧ 0 ≤ width ∧ top + height ≤ s.h ∧ left + width ≤ s.w := by
  have hhQ : (0 : ℚ) < (s.h : ℚ) := by exact_mod_cast hh
  have hwQ : (0 : ℚ) ≤ (s.w : ℚ) := by positivity
  induction ts with
  | nil =>
    unfold cropParams at h
    simp only at h
    by_cases hr : (s.w : ℚ) / (s.h : ℚ) < rmin
    · rw [if_pos hr] at h
      simp only [Prod.mk.injEq] at h
      obtain ⟨rfl, rfl, rfl, rfl⟩ := h
      have e1 : roundHalfEven ((s.w : ℚ) / rmin) ≤ (s.h : ℤ) := by
        apply roundHalfEven_le
        rw [div_le_iff₀ h0]
        rw [div_lt_iff₀ hhQ] at hr
        push_cast; linarith
      have e2 : 0 ≤ roundHalfEven ((s.w : ℚ) / rmin) := roundHalfEven_nonneg (by positivity)
      omega
    · rw [if_neg hr] at h
      by_cases hr' : (s.w : ℚ) / (s.h : ℚ) > rmax
      · rw [if_pos hr'] at h
        simp only [Prod.mk.injEq] at h
        obtain ⟨rfl, rfl, rfl, rfl⟩ := h
        have e1 : roundHalfEven ((s.h : ℚ) * rmax) ≤ (s.w : ℤ) := by
          apply roundHalfEven_le
          rw [gt_iff_lt, lt_div_iff₀ hhQ] at hr'
          push_cast; linarith
        have e2 : 0 ≤ roundHalfEven ((s.h : ℚ) * rmax) := roundHalfEven_nonneg (mul_nonneg hhQ.le (by linarith))
        omega
      · rw [if_neg hr'] at h
        simp only [Prod.mk.injEq] at h
        obtain ⟨rfl, rfl, rfl, rfl⟩ := h
        omega
  | cons t ts ih =>
    unfold cropParams at h
    by_cases hc : 0 < t.w ∧ t.w ≤ s.w ∧ 0 < t.h ∧ t.h ≤ s.h
    · rw [if_pos hc] at h
      simp only [Prod.mk.injEq] at h
      obtain ⟨rfl, rfl, rfl, rfl⟩ := h
      have := hts t (List.mem_cons_self ..) hc.2.2.1 hc.2.2.2 hc.1 hc.2.1
      omega
    · rw [if_neg hc] at h
      exact ih (fun t' ht' => hts t' (List.mem_cons_of_mem _ ht')) h

/-- **C64** A box found by one of the tries has pixels. -/
theorem C64_try_pixels (s : Size) (rmin rmax : ℚ) (ts : List Try)
    (hts : ∃ t ∈ ts, 0 < t.h ∧ t.h ≤ s.h ∧ 0 < t.w ∧ t.w ≤ s.w)
    (top left height width : ℤ) (h : cropParams s rmin rmax ts = (top, left, height, width)) : 0 < height ∧ 0 < width := by
  induction ts with
  | nil => obtain ⟨t, ht, _⟩ := hts; cases ht
  | cons t ts ih =>
    unfold cropParams at h
    by_cases hc : 0 < t.w ∧ t.w ≤ s.w ∧ 0 < t.h ∧ t.h ≤ s.h
    · rw [if_pos hc] at h
      simp only [Prod.mk.injEq] at h
      obtain ⟨rfl, rfl, rfl, rfl⟩ := h
      exact ⟨hc.2.2.1, hc.1⟩
    · rw [if_neg hc] at h
      obtain ⟨t', ht', h'⟩ := hts
      rcases List.mem_cons.1 ht' with rfl | ht'
      · exact absurd ⟨h'.2.2.1, h'.2.2.2, h'.1, h'.2.1⟩ hc
      · exact ih ⟨t', ht', h'⟩ h

/-- **C64** … and without a fitting try too, if the image is not extremely narrow compared to the ratios. -/
theorem C64_fallback_pixels_partial (s : Size) (hh : 0 < s.h) (hw : 0 < s.w) (rmin rmax : ℚ) (h0 : 0 < rmin)
    (hr1 : rmin < 2 * s.w) (hr2 : 1 < 2 * (s.h : ℚ) * rmax)
    (top left height width : ℤ) (h : cropParams s rmin rmax [] = (top, left, height, width)) : 0 < height ∧ 0 < width := by
  have key : ∀ x : ℚ, 1 / 2 < x → 0 < roundHalfEven x := by
    intro x hx
    have h1 := abs_le.1 (roundHalfEven_err x)
    have : (0 : ℚ) < (roundHalfEven x : ℚ) := by linarith [h1.1]
    exact_mod_cast this
  unfold cropParams at h
  simp only at h
  by_cases hr : (s.w : ℚ) / (s.h : ℚ) < rmin
  · rw [if_pos hr] at h
    simp only [Prod.mk.injEq] at h
    obtain ⟨rfl, rfl, rfl, rfl⟩ := h
    refine ⟨key _ ?_, by exact_mod_cast hw⟩
    rw [lt_div_iff₀ h0]; linarith
  · rw [if_neg hr] at h
    by_cases hr' : (s.w : ℚ) / (s.h : ℚ) > rmax
    · rw [if_pos hr'] at h
      simp only [Prod.mk.injEq] at h
      obtain ⟨rfl, rfl, rfl, rfl⟩ := h
      refine ⟨by exact_mod_cast hh, key _ ?_⟩
      linarith
    · rw [if_neg hr'] at h
      simp only [Prod.mk.injEq] at h
      obtain ⟨rfl, rfl, rfl, rfl⟩ := h
      exact ⟨by exact_mod_cast hh, by exact_mod_cast hw⟩

/-- **C64** The box used when no try fits is in the middle of the image. -/
theorem C64_fallback_centre (s : Size) (rmin rmax : ℚ)
    (top left height width : ℤ) (h : cropParams s rmin rmax [] = (top, left, height, width)) :
    (2 * top + height = s.h ∨ 2 * top + height = s.h - 1) ∧ (2 * left + width = s.w ∨ 2 * left + width = s.w - 1) := by
  unfold cropParams at h
  simp only at h
  generalize (if (s.w : ℚ) / (s.h : ℚ) < rmin then (roundHalfEven ((s.w : ℚ) / rmin), (s.w : ℤ))
      else if (s.w : ℚ) / (s.h : ℚ) > rmax then ((s.h : ℤ), roundHalfEven ((s.h : ℚ) * rmax)) else ((s.h : ℤ), (s.w : ℤ))) = hw at h
  simp only [Prod.mk.injEq] at h
  obtain ⟨rfl, rfl, rfl, rfl⟩ := h
  omega

/-- **C64** is violated for an image one pixel wide and the ratio 3: the box has no pixels (and the scale is a division by zero). -/
theorem C64_violated : cropParams ⟨10, 1⟩ 3 3 [] = (5, 0, 0, 1) := by decide +kernel

example : cropParams ⟨100, 50⟩ (3 / 4) (4 / 3) [⟨60, 40, 0, 0⟩, ⟨40, 30, 70, 10⟩] = (70, 10, 30, 40) := by decide +kernel

end Verif.Transform
