import Verif.Sharder.Lemmas

/-! Helper lemmas: round robin dealing of the remainders over several datasets. -/

namespace Verif.Sharder
open Verif.Float

/-- Number of `x < S` with `x ≡ j (mod g)`. -/
def dealt (g j S : ℕ) : ℕ := (S + (g - 1 - j)) / g

theorem div_small (g x : ℕ) :
    (x < g → x / g = 0) ∧ (g ≤ x → x < 2 * g → x / g = 1) ∧ (2 * g ≤ x → x < 3 * g → x / g = 2) := by
  refine ⟨Nat.div_eq_of_lt, fun h1 h2 => ?_, fun h1 h2 => ?_⟩
  · exact Nat.div_eq_of_lt_le (by omega) (by omega)
  · exact Nat.div_eq_of_lt_le (by omega) (by omega)

theorem dealt_step (g j S t : ℕ) (hj : j < g) :
    dealt g j S + (if (((j : ℤ) - (S % g : ℕ) + g) % g).toNat < t % g then t / g + 1 else t / g)
      = dealt g j (S + t) := by
  have hg : 0 < g := by omega
  unfold dealt
  have hS := Nat.div_add_mod S g
  have ht := Nat.div_add_mod t g
  have hs := Nat.mod_lt S hg
  have hr := Nat.mod_lt t hg
  set s := S % g
  set r := t % g
  set a := S / g
  set q := t / g
  have e1 : S + (g - 1 - j) = g * a + (s + (g - 1 - j)) := by omega
  have e2 : S + t + (g - 1 - j) = g * (a + q) + (s + r + (g - 1 - j)) := by
    rw [Nat.mul_add]; omega
  rw [e1, e2, Nat.mul_add_div hg, Nat.mul_add_div hg]
  obtain ⟨p0, p1, p2⟩ := div_small g (s + (g - 1 - j))
  obtain ⟨q0, q1, q2⟩ := div_small g (s + r + (g - 1 - j))
  have hu : (((j : ℤ) - (s : ℕ) + g) % g).toNat = if s ≤ j then j - s else j + g - s := by
    split_ifs with h
    · have : ((j : ℤ) - (s : ℕ) + g) % g = (j : ℤ) - s := by
        rw [Int.add_emod_right]
        exact Int.emod_eq_of_lt (by omega) (by omega)
      rw [this]; omega
    · have : ((j : ℤ) - (s : ℕ) + g) % g = (j : ℤ) - s + g :=
        Int.emod_eq_of_lt (by omega) (by omega)
      rw [this]; omega
  rw [hu]
  by_cases h : s ≤ j
  · rw [if_pos h, p0 (by omega)]
    by_cases h2 : j - s < r
    · rw [if_pos h2, q1 (by omega) (by omega)]; omega
    · rw [if_neg h2, q0 (by omega)]; omega
  · rw [if_neg h, p1 (by omega) (by omega)]
    by_cases h2 : j + g - s < r
    · rw [if_pos h2, q2 (by omega) (by omega)]; omega
    · rw [if_neg h2, q1 (by omega) (by omega)]; omega

theorem dealt_zero (g j : ℕ) (hj : j < g) : dealt g j 0 = 0 := by
  unfold dealt; rw [Nat.zero_add]; exact Nat.div_eq_of_lt (by omega)

theorem dealt_balanced (g i j S : ℕ) (hj : j < g) : dealt g i S ≤ dealt g j S + 1 := by
  unfold dealt
  rw [← Nat.add_div_right _ (by omega)]
  exact Nat.div_le_div_right (by omega)

/-- The rotation offsets as a recursion over the running sum. -/
def rotsFrom (g : ℕ) : ℕ → List ℕ → List ℕ
  | _, [] => []
  | S, l :: ls => S % g :: rotsFrom g (S + l) ls

theorem rotsFrom_eq (g S : ℕ) (ls : List ℕ) :
    rotsFrom g S ls = (List.range ls.length).map fun i => (S + (ls.take i).sum) % g := by
  induction ls generalizing S with
  | nil => rfl
  | cons l ls ih =>
    rw [List.length_cons, List.range_succ_eq_map]
    simp only [rotsFrom, List.map_cons, List.take_zero, List.sum_nil, Nat.add_zero, List.map_map]
    congr 1
    rw [ih]
    refine List.map_congr_left fun i _ => ?_
    simp [Nat.add_assoc]

theorem rotationOffsets_eq (ls : List ℕ) (g : ℕ) : rotationOffsets ls g = rotsFrom g 0 ls := by
  rw [rotsFrom_eq]; unfold rotationOffsets; simp

theorem workerCounts_at (t g : ℕ) (rot : ℤ) (ht : t < 2 ^ 53) (j : ℕ) (hj : j < g) :
    (workerCounts t g rot).getD ((bitRev (List.range g)).getD j 0) 0
      = if (((j : ℤ) - rot + g) % g).toNat < t % g then t / g + 1 else t / g := by
  have hl : j < (bitRev (List.range g)).length := by rw [bitRev_length]; exact hj
  have h := permuteCounts_get g (linearCounts t g rot) (linearCounts_length _ _ _) j hj
  have e : (bitRev (List.range g)).getD j 0 = (bitRev (List.range g))[j]'hl := by
    simp [List.getElem?_eq_getElem hl]
  rw [e]
  unfold workerCounts
  rw [List.getD_eq_getElem?_getD, h]
  simp [linearCounts_eq t g rot (by omega) ht]

/-- Every worker is somewhere in the bit reversal sequence. -/
theorem exists_position (g w : ℕ) (hw : w < g) :
    ∃ j < g, (bitRev (List.range g)).getD j 0 = w := by
  have : w ∈ bitRev (List.range g) := (bitRev_perm _).mem_iff.mpr (List.mem_range.mpr hw)
  obtain ⟨j, hj, h⟩ := List.getElem_of_mem this
  refine ⟨j, by rwa [bitRev_length] at hj, ?_⟩
  simp [List.getElem?_eq_getElem hj, h]

end Verif.Sharder
