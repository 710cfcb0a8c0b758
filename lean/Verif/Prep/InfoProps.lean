import Verif.Prep.InfoModel
import Verif.Prep.Props
import Mathlib.Data.List.Sort
import Mathlib.Data.List.Forall2
import Mathlib.Tactic.Linarith
import Mathlib.Tactic.NormNum
import Mathlib.Tactic.FieldSimp

/-!
# C101: `energon info` describes what is loaded; C43 and C59 for split patterns
-/

namespace Verif.Prep

open Verif.Float

/-! ## The printed size -/

/-- Dividing by a power of two is exact. -/
theorem fl_dyadic (n j : ℕ) (h : n < 2 ^ 53) : fl ((n : ℚ) / 2 ^ j) = (n : ℚ) / 2 ^ j := by
  rcases Nat.eq_zero_or_pos n with rfl | hn
  · simp [fl_zero]
  have h1 : 2 ^ Nat.log2 n ≤ n := Nat.log2_self_le (by omega)
  have h2 : n < 2 ^ (Nat.log2 n + 1) := Nat.lt_log2_self
  have hl : Nat.log2 n < 53 := by
    by_contra hc
    have : 2 ^ 53 ≤ 2 ^ Nat.log2 n := Nat.pow_le_pow_right (by norm_num) (by omega)
    omega
  obtain ⟨s, hs⟩ : ∃ s, Nat.log2 n + s = 52 := ⟨52 - Nat.log2 n, by omega⟩
  have hm1 : 2 ^ 52 ≤ n * 2 ^ s := by
    calc 2 ^ 52 = 2 ^ Nat.log2 n * 2 ^ s := by rw [← pow_add, hs]
      _ ≤ n * 2 ^ s := Nat.mul_le_mul_right _ h1
  have hm2 : n * 2 ^ s < 2 ^ 53 := by
    calc n * 2 ^ s < 2 ^ (Nat.log2 n + 1) * 2 ^ s := (Nat.mul_lt_mul_right (by positivity)).2 h2
      _ = 2 ^ 53 := by rw [← pow_add]; congr 1; omega
  have := fl_scaled (m := ((n * 2 ^ s : ℕ) : ℤ)) (e := -((s : ℤ) + j)) (by exact_mod_cast hm1) (by exact_mod_cast hm2)
  have e : (((n * 2 ^ s : ℕ) : ℤ) : ℚ) * (2 : ℚ) ^ (-((s : ℤ) + j)) = (n : ℚ) / 2 ^ j := by
    rw [zpow_neg, zpow_add₀ (by norm_num), zpow_natCast, zpow_natCast]
    push_cast
    field_simp
  rw [e] at this
  exact this

/-- The number of bytes of a unit. -/
def unitBytes (u : String) : ℚ := if u = "B" then 1 else if u = "KiB" then 1024 else if u = "MiB" then 1024 ^ 2 else if u = "GiB" then 1024 ^ 3
  else 1024 ^ 4

theorem hundredths_err (x : ℚ) : |(hundredths x : ℚ) / 100 - x| ≤ 1 / 200 := by
  have := roundHalfEven_err (100 * x)
  unfold hundredths
  rw [abs_le] at this ⊢
  constructor <;> linarith [this.1, this.2]

theorem fmtLoop_exact (n : ℕ) (h : n < 2 ^ 53) (ks : List String) (k : String) (j : ℕ) :
    fmtLoop (k :: ks) ((n : ℚ) / 2 ^ j) =
      if n < 1024 * 2 ^ j then (hundredths ((n : ℚ) / 2 ^ j), k) else fmtLoop ks ((n : ℚ) / 2 ^ (j + 10)) := by
  have e : (n : ℚ) / 2 ^ j / 1024 = (n : ℚ) / 2 ^ (j + 10) := by
    rw [pow_add]; norm_num; field_simp
  have c : (n : ℚ) / 2 ^ j < 1024 ↔ n < 1024 * 2 ^ j := by
    rw [div_lt_iff₀ (by positivity)]
    exact_mod_cast Iff.rfl
  simp only [fmtLoop, e, fl_dyadic n (j + 10) h, c]

/-- **C101, the printed size**, for datasets below one pebibyte: the printed number times the printed unit is the size up to half a hundredth of the
unit, and the unit is the largest one not above the size.
Missing: larger datasets (`C101_violated_size`). -/
theorem C101_size_partial (n : ℕ) (h : n < 1024 ^ 5) :
    |((fmtSize n).1 : ℚ) / 100 * unitBytes (fmtSize n).2 - n| ≤ unitBytes (fmtSize n).2 / 200 ∧
    (unitBytes (fmtSize n).2 ≤ n ∨ (fmtSize n).2 = "B") ∧ (n : ℚ) < 1024 * unitBytes (fmtSize n).2 := by
  have h53 : n < 2 ^ 53 := lt_of_lt_of_le h (by norm_num)
  have key : ∀ (j : ℕ) (u : String), unitBytes u = 2 ^ j → fmtSize n = (hundredths ((n : ℚ) / 2 ^ j), u) → n < 1024 * 2 ^ j → (2 ^ j ≤ n ∨ u = "B") →
      |((fmtSize n).1 : ℚ) / 100 * unitBytes (fmtSize n).2 - n| ≤ unitBytes (fmtSize n).2 / 200 ∧
      (unitBytes (fmtSize n).2 ≤ n ∨ (fmtSize n).2 = "B") ∧ (n : ℚ) < 1024 * unitBytes (fmtSize n).2 := by
    intro j u hu hf h1 h2
    rw [hf]
    simp only [hu]
    have hp : (0 : ℚ) < 2 ^ j := by positivity
    refine ⟨?_, ?_, by exact_mod_cast h1⟩
    · have := hundredths_err ((n : ℚ) / 2 ^ j)
      have e : (hundredths ((n : ℚ) / 2 ^ j) : ℚ) / 100 * 2 ^ j - n = ((hundredths ((n : ℚ) / 2 ^ j) : ℚ) / 100 - (n : ℚ) / 2 ^ j) * 2 ^ j := by
        field_simp
      rw [e, abs_mul, abs_of_pos hp]
      calc _ ≤ 1 / 200 * (2 : ℚ) ^ j := by gcongr
        _ = _ := by ring
    · rcases h2 with h2 | h2
      · left; exact_mod_cast h2
      · right; exact h2
  have e0 : fmtSize n = fmtLoop ["B", "KiB", "MiB", "GiB", "TiB"] ((n : ℚ) / 2 ^ 0) := by simp [fmtSize, sizeKeys]
  have u0 : unitBytes "B" = 2 ^ 0 := by simp [unitBytes]
  have u1 : unitBytes "KiB" = 2 ^ 10 := by simp [unitBytes]; norm_num
  have u2 : unitBytes "MiB" = 2 ^ 20 := by simp [unitBytes]; norm_num
  have u3 : unitBytes "GiB" = 2 ^ 30 := by simp [unitBytes]; norm_num
  have u4 : unitBytes "TiB" = 2 ^ 40 := by simp [unitBytes]; norm_num
  rw [fmtLoop_exact n h53] at e0
  by_cases c0 : n < 1024 * 2 ^ 0
  · rw [if_pos c0] at e0
    exact key 0 "B" u0 e0 c0 (Or.inr rfl)
  rw [if_neg c0, fmtLoop_exact n h53] at e0
  by_cases c1 : n < 1024 * 2 ^ 10
  · rw [if_pos c1] at e0
    exact key 10 "KiB" u1 e0 c1 (Or.inl (by omega))
  rw [if_neg c1, fmtLoop_exact n h53] at e0
  by_cases c2 : n < 1024 * 2 ^ 20
  · rw [if_pos c2] at e0
    exact key 20 "MiB" u2 e0 c2 (Or.inl (by omega))
  rw [if_neg c2, fmtLoop_exact n h53] at e0
  by_cases c3 : n < 1024 * 2 ^ 30
  · rw [if_pos c3] at e0
    exact key 30 "GiB" u3 e0 c3 (Or.inl (by omega))
  rw [if_neg c3, fmtLoop_exact n h53] at e0
  have c4 : n < 1024 * 2 ^ 40 := by omega
  rw [if_pos c4] at e0
  exact key 40 "TiB" u4 e0 c4 (Or.inl (by omega))

example : fmtSize 1610612736 = (150, "GiB") := by decide +kernel

/-- **C101, the printed size is false of the code** from one pebibyte on: 2048 TiB are printed as "2.00 TiB". -/
theorem C101_violated_size : fmtSize (2048 * 1024 ^ 4) = (200, "TiB") := by decide +kernel

/-! ## The printed percentage -/

/-- **C101, the printed percentage** is the share of the samples up to 0.51 (a half for the rounding to a full number). -/
theorem C101_percent (s total : ℕ) (ht : 0 < total) (hs : s ≤ total) : |(percentOf s total : ℚ) - 100 * s / total| ≤ 51 / 100 := by
  have hx0 : (0 : ℚ) ≤ ((100 * s : ℕ) : ℚ) / total := by positivity
  have hx1 : ((100 * s : ℕ) : ℚ) / total ≤ 100 := by
    rw [div_le_iff₀ (by exact_mod_cast ht)]
    exact_mod_cast (by omega : 100 * s ≤ 100 * total)
  have e1 := fl_err _ hx0
  have hd0 := fl_nonneg _ hx0
  have e2 := hundredths_err (pyDiv (100 * s) total)
  have e1' : |pyDiv (100 * s) total - ((100 * s : ℕ) : ℚ) / total| ≤ 1 / 1000 := by
    refine le_trans e1 ?_
    rw [div_le_iff₀ (by positivity)]
    refine le_trans hx1 ?_
    norm_num
  have hh0 : (0 : ℚ) ≤ (hundredths (pyDiv (100 * s) total) : ℚ) / 100 := by
    have : 0 ≤ hundredths (pyDiv (100 * s) total) := by
      unfold hundredths
      have := roundHalfEven_mono (x := 0) (y := 100 * pyDiv (100 * s) total) (by unfold pyDiv; positivity)
      have h0 := roundHalfEven_int 0
      simp only [Int.cast_zero] at h0
      rw [h0] at this
      exact this
    have : (0 : ℚ) ≤ (hundredths (pyDiv (100 * s) total) : ℚ) := by exact_mod_cast this
    positivity
  have hh1 : (hundredths (pyDiv (100 * s) total) : ℚ) / 100 ≤ 101 := by
    rw [abs_le] at e1' e2
    linarith [e1'.1, e1'.2, e2.1, e2.2]
  have e3 := fl_err _ hh0
  have e3' : |fl ((hundredths (pyDiv (100 * s) total) : ℚ) / 100) - (hundredths (pyDiv (100 * s) total) : ℚ) / 100| ≤ 1 / 1000 := by
    refine le_trans e3 ?_
    rw [div_le_iff₀ (by positivity)]
    refine le_trans hh1 ?_
    norm_num
  have e4 := roundHalfEven_err (fl ((hundredths (pyDiv (100 * s) total) : ℚ) / 100))
  have ec : ((100 * s : ℕ) : ℚ) / total = 100 * s / total := by push_cast; ring
  unfold percentOf
  rw [ec] at e1'
  rw [abs_le] at *
  constructor <;> linarith [e1'.1, e1'.2, e2.1, e2.2, e3'.1, e3'.2, e4.1, e4.2]

example : percentOf 2 3 = 67 := by decide +kernel

/-! ## The lines for the split parts -/

theorem srtKey_le (n : String) : srtKey n ≤ 3 := by unfold srtKey; split_ifs <;> omega

theorem sorted_split {β : Type} (l : List (String × β)) (h : l.Pairwise fun a b => srtKey a.1 ≤ srtKey b.1) :
    l = l.filter (fun p => srtKey p.1 = 0) ++ l.filter (fun p => srtKey p.1 = 1) ++ l.filter (fun p => srtKey p.1 = 2) ++
      l.filter (fun p => srtKey p.1 = 3) := by
  induction l with
  | nil => rfl
  | cons a t ih =>
    obtain ⟨h1, h2⟩ := List.pairwise_cons.1 h
    have h3 := srtKey_le a.1
    have hf : ∀ k, k < srtKey a.1 → t.filter (fun p => decide (srtKey p.1 = k)) = [] := by
      intro k hk
      rw [List.filter_eq_nil_iff]
      intro b hb
      have := h1 b hb
      simp only [decide_eq_true_eq]
      omega
    have ih := ih h2
    rcases (by omega : srtKey a.1 = 0 ∨ srtKey a.1 = 1 ∨ srtKey a.1 = 2 ∨ srtKey a.1 = 3) with e | e | e | e
    · simp only [List.filter_cons, e]
      simp only [decide_true, if_true, List.cons_append, List.cons.injEq, true_and]
      simpa using ih
    · have f0 := hf 0 (by omega)
      simp only [List.filter_cons, e, f0]
      rw [f0] at ih
      simpa using ih
    · have f0 := hf 0 (by omega)
      have f1 := hf 1 (by omega)
      simp only [List.filter_cons, e, f0, f1]
      rw [f0, f1] at ih
      simpa using ih
    · have f0 := hf 0 (by omega)
      have f1 := hf 1 (by omega)
      have f2 := hf 2 (by omega)
      simp only [List.filter_cons, e, f0, f1, f2]
      rw [f0, f1, f2] at ih
      simpa using ih

/-- The order of the lines: train, val, test, then the others as in the file. -/
def printOrder {β : Type} (parts : Dict β) : Dict β :=
  parts.filter (fun p => p.1 = "train") ++ parts.filter (fun p => p.1 = "val") ++ parts.filter (fun p => p.1 = "test") ++
    parts.filter (fun p => p.1 ≠ "train" ∧ p.1 ≠ "val" ∧ p.1 ≠ "test")

theorem mergeSort_printOrder {β : Type} (l : Dict β) :
    l.mergeSort (fun a b => decide (srtKey a.1 ≤ srtKey b.1)) = printOrder l := by
  have ht : ∀ a b c : String × β, decide (srtKey a.1 ≤ srtKey b.1) = true → decide (srtKey b.1 ≤ srtKey c.1) = true →
      decide (srtKey a.1 ≤ srtKey c.1) = true := by
    intro a b c; simp only [decide_eq_true_eq]; omega
  have hto : ∀ a b : String × β, (decide (srtKey a.1 ≤ srtKey b.1) || decide (srtKey b.1 ≤ srtKey a.1)) = true := by
    intro a b; simp only [Bool.or_eq_true, decide_eq_true_eq]; omega
  have hp := List.mergeSort_perm l (fun a b : String × β => decide (srtKey a.1 ≤ srtKey b.1))
  have hs := List.pairwise_mergeSort ht hto l
  have hst : ∀ k, (l.mergeSort (fun a b => decide (srtKey a.1 ≤ srtKey b.1))).filter (fun p => decide (srtKey p.1 = k)) =
      l.filter (fun p => decide (srtKey p.1 = k)) := by
    intro k
    have h1 : (l.filter (fun p => decide (srtKey p.1 = k))).Sublist (l.mergeSort (fun a b => decide (srtKey a.1 ≤ srtKey b.1))) := by
      refine List.sublist_mergeSort ht hto ?_ List.filter_sublist
      refine List.pairwise_of_forall_mem_list ?_
      intro a ha b hb
      have ha := (List.mem_filter.1 ha).2
      have hb := (List.mem_filter.1 hb).2
      simp only [decide_eq_true_eq] at ha hb ⊢
      omega
    have h2 := h1.filter (fun p => decide (srtKey p.1 = k))
    rw [List.filter_filter] at h2
    simp only [Bool.and_self] at h2
    exact (h2.eq_of_length (hp.filter _).length_eq.symm).symm
  have e := sorted_split _ (hs.imp (by intro a b h; simpa using h))
  rw [hst, hst, hst, hst] at e
  rw [e]
  unfold printOrder
  congr 1
  · congr 1
    · congr 1
      · apply List.filter_congr; intro p _; simp [srtKey]; split_ifs <;> simp_all
      · apply List.filter_congr; intro p _; simp [srtKey]; split_ifs <;> simp_all
    · apply List.filter_congr; intro p _; simp [srtKey]; split_ifs <;> simp_all
  · apply List.filter_congr; intro p _; simp [srtKey]; split_ifs <;> simp_all

theorem printOrder_perm {β : Type} (l : Dict β) : (printOrder l).Perm l := by
  rw [← mergeSort_printOrder]
  exact List.mergeSort_perm _ _

/-- What a line says of a part listed with the shards `names`. -/
def LineOf (counts : Dict ℕ) (total : ℕ) (part : String × List String) (line : InfoLine) : Prop :=
  ∃ cs, allSome (part.2.map counts.get) = some cs ∧
    line = { name := part.1, percent := percentOf cs.sum total, samples := cs.sum, shards := part.2.length }

theorem infoLines_ok {counts : Dict ℕ} {total : ℕ} {ps : List (String × List String)} {ls : List InfoLine}
    (h : infoLines counts total ps = .ok ls) : List.Forall₂ (LineOf counts total) ps ls ∧ (ps ≠ [] → total ≠ 0) := by
  induction ps generalizing ls with
  | nil =>
    simp only [infoLines, Except.ok.injEq] at h
    subst h
    exact ⟨.nil, fun h => absurd rfl h⟩
  | cons p ps ih =>
    simp only [infoLines, infoLine] at h
    cases ha : allSome (p.2.map counts.get) with
    | none => rw [ha] at h; cases h
    | some cs =>
      rw [ha] at h
      simp only at h
      by_cases ht : total = 0
      · rw [if_pos ht] at h; cases h
      · rw [if_neg ht] at h
        simp only at h
        cases hr : infoLines counts total ps with
        | error e => rw [hr] at h; cases h
        | ok ls' =>
          rw [hr] at h
          simp only [Except.ok.injEq] at h
          subst h
          exact ⟨.cons ⟨cs, ha, rfl⟩ (ih hr).1, fun _ => ht⟩

theorem infoLines_of {counts : Dict ℕ} {total : ℕ} (ht : total ≠ 0) {ps : List (String × List String)}
    (h : ∀ p ∈ ps, ∃ cs, allSome (p.2.map counts.get) = some cs) : ∃ ls, infoLines counts total ps = .ok ls := by
  induction ps with
  | nil => exact ⟨[], rfl⟩
  | cons p ps ih =>
    obtain ⟨cs, hc⟩ := h p (by simp)
    obtain ⟨ls, hl⟩ := ih (fun q hq => h q (by simp [hq]))
    refine ⟨{ name := p.1, percent := percentOf cs.sum total, samples := cs.sum, shards := p.2.length } :: ls, ?_⟩
    simp only [infoLines, infoLine, hc, if_neg ht, hl]

theorem Dict.get_mem {α : Type} {d : Dict α} {k : String} {v : α} (h : d.get k = some v) : (k, v) ∈ d := by
  induction d with
  | nil => cases h
  | cons e d ih =>
    obtain ⟨k', v'⟩ := e
    simp only [Dict.get] at h
    split at h
    · rename_i hk; subst hk; injection h with h; subst h; simp
    · exact List.mem_cons_of_mem _ (ih h)

theorem Dict.get_of_mem {α : Type} {d : Dict α} {k : String} {v : α} (hn : (d.map Prod.fst).Nodup) (h : (k, v) ∈ d) : d.get k = some v := by
  induction d with
  | nil => cases h
  | cons e d ih =>
    obtain ⟨k', v'⟩ := e
    simp only [List.map_cons, List.nodup_cons] at hn
    rcases List.mem_cons.1 h with h | h
    · injection h with h1 h2; subst h1; subst h2; simp [Dict.get]
    · have : k' ≠ k := by
        intro hk; subst hk
        exact hn.1 (List.mem_map_of_mem (f := Prod.fst) h)
      simp only [Dict.get, if_neg this]
      exact ih hn.2 h

theorem allSome_iff {α : Type} (l : List (Option α)) (r : List α) : allSome l = some r ↔ l = r.map some := by
  induction l generalizing r with
  | nil => cases r <;> simp [allSome]
  | cons a l ih =>
    cases a with
    | none => cases r <;> simp [allSome]
    | some a =>
      cases r with
      | nil => simp [allSome]
      | cons b r =>
        simp only [allSome, Option.map_eq_some_iff, List.map_cons, List.cons.injEq, Option.some.injEq]
        constructor
        · rintro ⟨r', h1, h2, h3⟩
          subst h3
          exact ⟨h2, (ih _).1 h1⟩
        · rintro ⟨h1, h2⟩
          exact ⟨r, (ih _).2 h2, h1, rfl⟩

/-- **C101, everything that is printed**, for every .info.yaml and split.yaml for which something is printed: the totals are those of all shards of
.info.yaml; there is one line for each split part (train, val, test, then the others in the order of the file), with the number of the shards listed
for the part and the sum of their samples. -/
theorem C101_printed {counts : Dict ℕ} {parts : Dict (List String)} {size : String → Option ℕ} {out : InfoOut}
    (h : info counts parts size = .ok out) :
    out.samples = (counts.map Prod.snd).sum ∧ out.shards = counts.length ∧
    (∃ zs : List ℕ, counts.map (fun c => size c.1) = zs.map some ∧ out.size = fmtSize zs.sum) ∧
    out.lines.map InfoLine.name = (printOrder parts).map Prod.fst ∧
    ∀ line ∈ out.lines, ∃ (names : List String) (cs : List ℕ), (line.name, names) ∈ parts ∧ names.map counts.get = cs.map some ∧ line.shards = names.length ∧
      line.samples = cs.sum ∧ line.percent = percentOf line.samples out.samples := by
  unfold info at h
  simp only at h
  rw [mergeSort_printOrder] at h
  cases hl : infoLines counts (counts.map Prod.snd).sum (printOrder parts) with
  | error e => rw [hl] at h; cases h
  | ok ls =>
    rw [hl] at h
    simp only at h
    cases hz : allSome (counts.map fun c => size c.1) with
    | none => rw [hz] at h; cases h
    | some zs =>
      rw [hz] at h
      simp only [Except.ok.injEq] at h
      subst h
      obtain ⟨hf, -⟩ := infoLines_ok hl
      refine ⟨rfl, rfl, ⟨zs, (allSome_iff _ _).1 hz, rfl⟩, ?_, ?_⟩
      · show ls.map InfoLine.name = _
        clear hl hz
        generalize printOrder parts = q at hf
        induction hf with
        | nil => rfl
        | cons hx _ ih =>
          obtain ⟨cs, _, rfl⟩ := hx
          simp [ih]
      · intro line hline
        have : ∃ p ∈ printOrder parts, LineOf counts (counts.map Prod.snd).sum p line := by
          clear hl hz
          generalize printOrder parts = q at hf
          induction hf with
          | nil => cases hline
          | cons hx _ ih =>
            rcases List.mem_cons.1 hline with rfl | hline
            · exact ⟨_, by simp, hx⟩
            · obtain ⟨p, hp, hq⟩ := ih hline
              exact ⟨p, by simp [hp], hq⟩
        obtain ⟨p, hp, cs, hcs, rfl⟩ := this
        exact ⟨p.2, cs, (printOrder_perm parts).mem_iff.1 hp, (allSome_iff _ _).1 hcs, rfl, rfl, rfl⟩

/-- What `energon info` should say of a split part: the number of samples and shards that are loaded for it. -/
def TellsWhatLoads (line : InfoLine) : Loaded → Prop
  | .shards l _ => line.samples = (l.map Shard.count).sum ∧ line.shards = l.length
  | .empty => line.samples = 0 ∧ line.shards = 0
  | _ => False

/-- **C101 in full**: whatever .info.yaml, split.yaml and the files are, if every split part can be loaded (or is empty) and there is a sample and all
files exist, then `energon info` prints, and what is said of each part is what is loaded. -/
def C101_statement : Prop :=
  ∀ (expand : String → List String) (counts : Dict ℕ) (parts : Dict (List String)) (exclude : List String) (size : String → Option ℕ),
    (counts.map Prod.fst).Nodup → (parts.map Prod.fst).Nodup → 0 < (counts.map Prod.snd).sum →
    (∀ c ∈ counts, (size c.1).isSome) →
    (∀ p ∈ parts, fromConfig expand counts parts exclude p.1 ≠ .keyError) →
    ∃ out, info counts parts size = .ok out ∧ ∀ line ∈ out.lines, TellsWhatLoads line (fromConfig expand counts parts exclude line.name)

/-- **C101 for split files without braces and exclusions** (the ones written by `energon prepare`): the full statement.
Missing: `exclude` and braces in split.yaml, see `C101_violated_exclude` and `C101_violated_braces`. -/
theorem C101_loads_partial (expand : String → List String) (counts : Dict ℕ) (parts : Dict (List String)) (size : String → Option ℕ)
    (hp : (parts.map Prod.fst).Nodup) (hpos : 0 < (counts.map Prod.snd).sum)
    (hsize : ∀ c ∈ counts, (size c.1).isSome)
    (hx : ∀ p ∈ parts, ∀ n ∈ p.2, expand n = [n])
    (hload : ∀ p ∈ parts, fromConfig expand counts parts [] p.1 ≠ .keyError) :
    ∃ out, info counts parts size = .ok out ∧ ∀ line ∈ out.lines, TellsWhatLoads line (fromConfig expand counts parts [] line.name) := by
  have hfm : ∀ p ∈ parts, p.2.flatMap expand = p.2 := by
    intro p hpp
    have := hx p hpp
    generalize p.2 = l at this
    induction l with
    | nil => rfl
    | cons a l ih => rw [List.flatMap_cons, this a (by simp), ih (fun n hn => this n (by simp [hn]))]; rfl
  have hfc : ∀ p ∈ parts, fromConfig expand counts parts [] p.1 =
      if p.2.length = 0 then .empty else
        match allSome (p.2.map (fun n => (counts.get n).map (fun c => (⟨n, c⟩ : Shard)))) with
        | none => .keyError
        | some l => .shards l [] := by
    intro p hpp
    have hg := Dict.get_of_mem hp (show (p.1, p.2) ∈ parts from hpp)
    unfold fromConfig
    rw [hg]
    simp only [List.flatMap_nil, List.not_mem_nil, not_false_eq_true, decide_true, List.filter_true, hfm p hpp, List.filter_nil]
    rfl
  have hcs : ∀ p ∈ parts, ∃ cs, allSome (p.2.map counts.get) = some cs := by
    intro p hpp
    have := hload p hpp
    rw [hfc p hpp] at this
    have hall : ∀ n ∈ p.2, (counts.get n).isSome := by
      by_cases h0 : p.2.length = 0
      · rw [List.length_eq_zero_iff] at h0; rw [h0]; intro n hn; cases hn
      · rw [if_neg h0] at this
        cases ha : allSome (p.2.map (fun n => (counts.get n).map (fun c => (⟨n, c⟩ : Shard)))) with
        | none => rw [ha] at this; exact absurd rfl this
        | some l =>
          intro n hn
          have h1 := (allSome_iff _ _).1 ha
          have h2 : (counts.get n).map (fun c => (⟨n, c⟩ : Shard)) ∈ l.map some := by
            rw [← h1]; exact List.mem_map_of_mem (f := fun n => (counts.get n).map (fun c => (⟨n, c⟩ : Shard))) hn
          obtain ⟨s, _, hs⟩ := List.mem_map.1 h2
          cases hgn : counts.get n with
          | none => rw [hgn] at hs; cases hs
          | some c => rfl
    refine ⟨p.2.map (fun n => (counts.get n).getD 0), ?_⟩
    refine allSome_map _ _ _ ?_
    intro n hn
    have := hall n hn
    cases hgn : counts.get n with
    | none => rw [hgn] at this; cases this
    | some c => rfl
  obtain ⟨ls, hls⟩ := infoLines_of (counts := counts) (ps := printOrder parts) (by omega : (counts.map Prod.snd).sum ≠ 0)
    (fun p hpp => hcs p ((printOrder_perm parts).mem_iff.1 hpp))
  have hz : allSome (counts.map fun c => size c.1) = some (counts.map fun c => (size c.1).getD 0) := by
    refine allSome_map _ _ _ ?_
    intro c hc
    have := hsize c hc
    cases hgn : size c.1 with
    | none => rw [hgn] at this; cases this
    | some c => rfl
  have hok : info counts parts size = .ok ⟨(counts.map Prod.snd).sum, fmtSize (counts.map fun c => (size c.1).getD 0).sum, counts.length, ls⟩ := by
    unfold info
    simp only
    rw [mergeSort_printOrder, hls]
    simp only
    rw [hz]
  refine ⟨_, hok, ?_⟩
  intro line hline
  obtain ⟨names, cs, hmem, hmap, h1, h2, -⟩ := (C101_printed hok).2.2.2.2 line hline
  rw [hfc (line.name, names) hmem]
  simp only
  by_cases h0 : names.length = 0
  · rw [if_pos h0]
    rw [List.length_eq_zero_iff] at h0
    subst h0
    simp only [List.map_nil] at hmap
    have : cs = [] := by cases cs with | nil => rfl | cons a l => cases hmap
    subst this
    exact ⟨by simpa using h2, by simpa using h1⟩
  · rw [if_neg h0]
    have e : allSome (names.map (fun n => (counts.get n).map (fun c => (⟨n, c⟩ : Shard)))) =
        some ((names.zip cs).map fun q => ⟨q.1, q.2⟩) ∧ (((names.zip cs).map fun q => (⟨q.1, q.2⟩ : Shard)).map Shard.count) = cs := by
      clear h0 h1 h2 hline hok hmem
      induction names generalizing cs with
      | nil =>
        cases cs with
        | nil => exact ⟨rfl, rfl⟩
        | cons a l => cases hmap
      | cons n names ih =>
        cases cs with
        | nil => cases hmap
        | cons c cs =>
          simp only [List.map_cons, List.cons.injEq] at hmap
          obtain ⟨i1, i2⟩ := ih cs hmap.2
          constructor
          · simp only [List.map_cons, hmap.1, Option.map_some, allSome, i1, List.zip_cons_cons]
          · simp only [List.zip_cons_cons, List.map_cons, i2]
    rw [e.1]
    refine ⟨by rw [h2, e.2], ?_⟩
    rw [h1, List.length_map, List.length_zip]
    have := congrArg List.length hmap
    simp only [List.length_map] at this
    omega

theorem Dict.set_keys {α : Type} (d : Dict α) (k : String) (v : α) (h : (d.map Prod.fst).Nodup) : ((d.set k v).map Prod.fst).Nodup := by
  by_cases hk : k ∈ d.map Prod.fst
  · have : (d.set k v).map Prod.fst = d.map Prod.fst := by
      clear h
      induction d with
      | nil => cases hk
      | cons e d ih =>
        obtain ⟨k', v'⟩ := e
        simp only [Dict.set]
        by_cases he : k' = k
        · simp [he]
        · rw [if_neg he]
          simp only [List.map_cons, List.mem_cons] at hk ⊢
          rw [ih (hk.resolve_left (fun h => he h.symm))]
    rw [this]; exact h
  · rw [Dict.set_new d k v hk, List.map_append, List.nodup_append]
    refine ⟨h, by simp, ?_⟩
    intro a ha b hb hab
    simp only [List.map_cons, List.map_nil, List.mem_singleton] at hb
    subst hb; subst hab
    exact hk ha

theorem splitLoop_keys (shards : List Shard) (qs : List (String × ℚ)) (t : ℚ) (off : ℕ) (d : Dict (List String)) (h : (d.map Prod.fst).Nodup) :
    ((splitLoop shards qs t off d).map Prod.fst).Nodup := by
  induction qs generalizing t off d with
  | nil => exact h
  | cons q qs ih => exact ih _ _ _ (Dict.set_keys _ _ _ h)

theorem shardCounts_new {shards : List Shard} (hn : (shards.map Shard.name).Nodup) :
    shardCounts shards = shards.map fun s => (s.name, s.count) := by
  have := foldl_set_new (fun s : Shard => (s.name, s.count)) shards [] (by simpa using hn)
  simpa [shardCounts] using this

/-- **C101 for prepared datasets**: directly after `energon prepare` found a shard with a sample, `energon info` prints; the totals are those of all
shards that could be read, and each part is described by what is loaded for it. -/
theorem C101_prepared {expand : String → List String} {found shards : List Shard} {ratios : List (String × ℚ)}
    {parts : Dict (List String)} {size : String → Option ℕ}
    (hsh : shards.Perm (keep found)) (hn : (shards.map Shard.name).Nodup) (hx : ∀ s ∈ shards, expand s.name = [s.name])
    (hsize : ∀ s ∈ shards, (size s.name).isSome) (hne : shards ≠ [])
    (h : splitRatio shards ratios = some parts) :
    ∃ out, info (shardCounts (keep found)) parts size = .ok out ∧
      out.samples = (found.map Shard.count).sum ∧ out.shards = shards.length ∧
      ∀ line ∈ out.lines, TellsWhatLoads line (fromConfig expand (shardCounts (keep found)) parts [] line.name) := by
  have hn' : ((keep found).map Shard.name).Nodup := (hsh.map Shard.name).nodup_iff.1 hn
  have hc := shardCounts_new hn'
  have hcs : ((shardCounts (keep found)).map Prod.snd) = (keep found).map Shard.count := by rw [hc, List.map_map]; rfl
  have hpos : 0 < ((shardCounts (keep found)).map Prod.snd).sum := by
    rw [hcs]
    obtain ⟨s, hs⟩ := List.exists_mem_of_ne_nil _ hne
    have hs := hsh.mem_iff.1 hs
    have h0 : s.count ≠ 0 := by simpa using (List.mem_filter.1 hs).2
    have := List.single_le_sum (l := (keep found).map Shard.count) (by intro x _; exact Nat.zero_le _) s.count (List.mem_map_of_mem hs)
    omega
  have hparts : (parts.map Prod.fst).Nodup ∧ ∀ p ∈ parts, ∀ n ∈ p.2, expand n = [n] := by
    unfold splitRatio at h
    simp only at h
    split at h
    · cases h
    · injection h with h
      have hk := splitLoop_keys shards (normalize (pySum (ratios.map Prod.snd)) ratios) 0 0 [] (by simp)
      rw [h] at hk
      refine ⟨hk, ?_⟩
      intro p hp n hnn
      have hg := Dict.get_of_mem hk (show (p.1, p.2) ∈ parts from hp)
      rw [← h] at hg
      obtain ⟨as, ha, hb⟩ := splitLoop_assigned shards _ _ _ [] (by intro p' names' h'; cases h') p.1 p.2 hg
      rw [ha] at hnn
      obtain ⟨s, hs, rfl⟩ := List.mem_map.1 hnn
      exact hx s (hb s hs)
  obtain ⟨out, ho, hl⟩ := C101_loads_partial expand (shardCounts (keep found)) parts size hparts.1 hpos
    (by
      intro c hcc
      rw [hc] at hcc
      obtain ⟨s, hs, rfl⟩ := List.mem_map.1 hcc
      exact hsize s (hsh.mem_iff.2 hs))
    hparts.2 (fun p _ => (C59_prepared hsh hn hx h).1)
  refine ⟨out, ho, ?_, ?_, hl⟩
  · rw [(C101_printed ho).1, hcs]
    unfold keep
    clear * -
    induction found with
    | nil => rfl
    | cons s l ih =>
      by_cases h0 : s.count = 0
      · simp [h0] at ih ⊢; exact ih
      · simp [h0] at ih ⊢; exact ih
  · rw [(C101_printed ho).2.1, hc, List.length_map, hsh.length_eq]

/-- A case that meets the hypotheses of `C101_prepared`. -/
example : (splitRatio ten [("train", 8), ("val", 2)]).isSome ∧ (ten.map Shard.name).Nodup ∧ ten.Perm (keep (⟨"x", 0⟩ :: ten)) := by
  have : keep (⟨"x", 0⟩ :: ten) = ten := by decide +kernel
  rw [this]
  exact ⟨by decide +kernel, by decide +kernel, List.Perm.refl _⟩

/-- **C101 is false of the code** for split files with `exclude`: the excluded shard is counted. -/
theorem C101_violated_exclude : ¬ C101_statement := by
  intro h
  obtain ⟨out, h1, h2⟩ := h (fun s => [s]) [("a.tar", 10), ("b.tar", 5)] [("train", ["a.tar", "b.tar"])] ["b.tar"] (fun _ => some 0)
    (by decide) (by decide) (by decide) (by intro c _; rfl) (by decide +kernel)
  have : info [("a.tar", 10), ("b.tar", 5)] [("train", ["a.tar", "b.tar"])] (fun _ => some 0) =
      .ok ⟨15, (0, "B"), 2, [⟨"train", 100, 15, 2⟩]⟩ := by decide +kernel
  rw [this] at h1
  injection h1 with h1
  subst h1
  have := h2 ⟨"train", 100, 15, 2⟩ (by simp)
  have e : fromConfig (fun s => [s]) [("a.tar", 10), ("b.tar", 5)] [("train", ["a.tar", "b.tar"])] ["b.tar"] "train" = .shards [⟨"a.tar", 10⟩] [] := by
    decide +kernel
  simp only [e, TellsWhatLoads] at this
  revert this
  decide

/-- **C101 is false of the code** for split files with braces (which are allowed, and loaded): nothing is printed (`KeyError`). -/
theorem C101_violated_braces : ¬ C101_statement := by
  intro h
  obtain ⟨out, h1, h2⟩ := h (fun s => if s = "{a,b}.tar" then ["a.tar", "b.tar"] else [s]) [("a.tar", 10), ("b.tar", 5)] [("train", ["{a,b}.tar"])] []
    (fun _ => some 0) (by decide) (by decide) (by decide) (by intro c _; rfl) (by decide +kernel)
  have : info [("a.tar", 10), ("b.tar", 5)] [("train", ["{a,b}.tar"])] (fun _ => some 0) = .error .keyError := by decide +kernel
  rw [this] at h1
  cases h1

/-- A case that meets the hypotheses of `C101_loads_partial`. -/
example : info [("a.tar", 10), ("b.tar", 5), ("c.tar", 5)] [("extra", []), ("test", ["c.tar"]), ("train", ["a.tar", "b.tar"])] (fun _ => some 1024) =
    .ok ⟨20, (300, "KiB"), 3, [⟨"train", 75, 15, 2⟩, ⟨"test", 25, 5, 1⟩, ⟨"extra", 0, 0, 0⟩]⟩ := by
  unfold info
  simp only
  rw [mergeSort_printOrder]
  decide +kernel

end Verif.Prep
