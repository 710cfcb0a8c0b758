import Verif.Sharder.Props
import Verif.Float.Mono
import Verif.Pipeline.Spec
import Mathlib.Data.List.Nodup
import Mathlib.Tactic.Linarith
import Mathlib.Tactic.NormNum

/-! # From the sharder to the loader: the slices of one worker -/

namespace Verif.Pipeline

open Verif.Stream Verif.Wds

variable {B C K ρ : Type}

/-- Nothing is added, and nothing is lost completely. -/
def Kept (l l' : List (List (String × Nat))) : Prop := l.Sublist l' ∧ (l = [] → l' = [])

theorem covers_kept (mx : Option Nat) (hm : ∀ n, mx = some n → 1 ≤ n) (bound : Nat) (hb : bound ≤ 2 ^ 48) :
    Sharder.Covers mx Kept bound where
  refl x := ⟨List.Sublist.refl _, id⟩
  app a b c d h1 h2 := ⟨h1.1.append h2.1, fun h => by
    rw [List.append_eq_nil_iff] at h
    rw [h1.2 h.1, h2.2 h.2]; rfl⟩
  split s a b hab hbb := by
    cases mx with
    | none =>
      have := (Sharder.covers_none bound).split s a b hab hbb
      rw [this]
      exact ⟨List.Sublist.refl _, id⟩
    | some m =>
      refine ⟨(Sharder.covers_sublist m (hm m rfl) bound hb).split s a b hab hbb, ?_⟩
      obtain ⟨c, h1, h2, h3, h4⟩ := Sharder.samplesOf_splitShard s a b m (hm m rfl) (by omega)
      rw [h1]
      intro h0
      have hc : c = 0 := by
        have := congrArg List.length h0
        simpa [Sharder.cells_length] using this
      rcases h4 with h4 | ⟨h4, _⟩
      · rw [← h4]; exact h0
      · exfalso
        have hone : (1 : ℚ) ≤ Float.fl ((m : ℚ) * (3 / 2)) := by
          have h5 := Float.fl_mono (x := ((1 : Nat) : ℚ)) (y := (m : ℚ) * (3 / 2)) (by
            have : (1 : ℚ) ≤ m := by exact_mod_cast hm m rfl
            push_cast
            linarith)
          rw [Float.fl_natCast 1 (by norm_num)] at h5
          exact_mod_cast h5
        have h6 : ((b - a : Nat) : ℚ) ≤ 1 := by
          have : b - a ≤ 1 := by omega
          exact_mod_cast this
        linarith

theorem heads_sublist (l : List Sharder.Subshards) (h : ∀ s ∈ l, 0 < s.head.count) :
    (l.map fun s => some (s.head.name, s.head.offset)).Sublist ((Sharder.samplesOf l).map List.head?) := by
  induction l with
  | nil => simp
  | cons s l ih =>
    rw [Sharder.samplesOf_cons, List.map_append, List.map_cons, ← List.singleton_append]
    refine List.Sublist.append ?_ (ih fun t ht => h t (by simp [ht]))
    have := h s (by simp)
    obtain ⟨n, hn⟩ : ∃ n, s.head.count = n + 1 := ⟨s.head.count - 1, by omega⟩
    rw [Sharder.Subshards.samples, hn, List.range_succ_eq_map]
    simp [Sharder.Subshards.sampleAt, Sharder.Subshards.cols]

theorem heads_nodup (l : List Sharder.Subshards) (hn : (l.map (·.head.name)).Nodup) :
    ((Sharder.samplesOf l).map List.head?).Nodup := by
  induction l with
  | nil => simp [Sharder.samplesOf]
  | cons s l ih =>
    rw [List.map_cons, List.nodup_cons] at hn
    rw [Sharder.samplesOf_cons, List.map_append]
    refine List.Nodup.append ?_ (ih hn.2) ?_
    · rw [Sharder.Subshards.samples, List.map_map]
      refine List.Nodup.map ?_ List.nodup_range
      intro i j hij
      simp [Sharder.Subshards.sampleAt, Sharder.Subshards.cols] at hij
      exact hij
    · intro x hx hy
      rw [List.mem_map] at hx hy
      obtain ⟨p, hp, rfl⟩ := hx
      obtain ⟨q, hq, he⟩ := hy
      rw [Sharder.Subshards.samples, List.mem_map] at hp
      obtain ⟨i, _, rfl⟩ := hp
      obtain ⟨t, ht, hq⟩ := List.mem_flatMap.1 hq
      rw [Sharder.Subshards.samples, List.mem_map] at hq
      obtain ⟨j, _, rfl⟩ := hq
      simp [Sharder.Subshards.sampleAt, Sharder.Subshards.cols] at he
      exact hn.1 (List.mem_map.2 ⟨t, ht, he.1⟩)

/-- The slices of worker `i` of any shards: none is empty; if there are enough samples there is at least one; no two have the same key. -/
theorem parts_ok {shards : List Sharder.Subshards} (whole : Sharder.WholeShards shards) (nonempty : shards ≠ []) (size : Sharder.total shards ≤ 2 ^ 48)
    (names : (shards.map (·.head.name)).Nodup) {mx : Option Nat} (maxSamples : ∀ n, mx = some n → 1 ≤ n) {w : Sharder.WorkerConfig} (hr : w.rank < w.worldSize) (rot : Nat) {i : Nat}
    (hi : i < w.workers) :
    ∃ (ps : List (List Sharder.Subshards)) (p : List Sharder.Subshards), Sharder.shardWorkers shards w mx rot = .ok ps ∧ ps.getD i [] = p ∧
      (∀ s ∈ p, 0 < s.head.count) ∧ (p.map fun s => (s.head.name, s.head.offset)).Nodup ∧
      (Sharder.samplesOf p).Sublist (Sharder.samplesOf shards) ∧ (w.globalWorkers ≤ Sharder.total shards → p ≠ []) ∧
      Sharder.reads (Sharder.shardWorkers shards w mx rot) i = Sharder.samplesOf p := by
  have h53 : Sharder.total shards < 2 ^ 53 := lt_of_le_of_lt size (by norm_num)
  obtain ⟨ps, h1, h2, h3⟩ := Sharder.shardWorkers_parts shards w mx rot Kept
    (covers_kept _ maxSamples _ size) whole nonempty hr h53
  obtain ⟨p, g1, g2, g3⟩ := h3 i hi
  have hg : ps.getD i [] = p.filter fun s => s.head.count > 0 := by
    rw [List.getD_eq_getElem?_getD, g1]; rfl
  have hpos : ∀ s ∈ p.filter (fun s => s.head.count > 0), 0 < s.head.count := by
    intro s hs
    have := (List.mem_filter.1 hs).2
    simpa using this
  have hsub : (Sharder.samplesOf (p.filter fun s => s.head.count > 0)).Sublist (Sharder.samplesOf shards) := by
    rw [Sharder.samplesOf_filter]
    exact g3.1.trans ((List.take_sublist _ _).trans (List.drop_sublist _ _))
  refine ⟨ps, p.filter fun s => s.head.count > 0, h1, hg, hpos, ?_, hsub, ?_, by rw [h1]; simp only [Sharder.reads, hg]⟩
  · have a1 := heads_nodup shards names
    have a2 := (heads_sublist _ hpos).trans (hsub.map List.head?)
    have a3 := a2.nodup a1
    have a4 : ((p.filter fun s => s.head.count > 0).map fun s => some (s.head.name, s.head.offset)) =
        ((p.filter fun s => s.head.count > 0).map fun s => (s.head.name, s.head.offset)).map some := by
      rw [List.map_map]; rfl
    rw [a4] at a3
    exact List.Nodup.of_map _ a3
  · intro hen he
    have b0 : 0 < w.workers := by unfold Sharder.WorkerConfig.workers; omega
    have hlt : w.rank * w.workers + i < w.globalWorkers := by
      unfold Sharder.WorkerConfig.globalWorkers
      calc w.rank * w.workers + i < w.rank * w.workers + w.workers := by omega
        _ = w.workers * (w.rank + 1) := by ring
        _ ≤ _ := Nat.mul_le_mul_left _ hr
    have hgp : 0 < w.globalWorkers := by omega
    have b1 : Sharder.samplesOf p = [] := by
      rw [← Sharder.samplesOf_filter, he]; rfl
    have b2 := g3.2 b1
    have b3 := congrArg List.length b2
    rw [List.length_take, List.length_drop, Sharder.samplesOf_length] at b3
    have b4 := Sharder.startOf_succ (Sharder.total shards) w.globalWorkers rot _ hlt
    have b5 := Sharder.startOf_le (Sharder.total shards) w.globalWorkers rot (w.rank * w.workers + i + 1) hgp h53
    have hl : w.rank * w.workers + i < (Sharder.workerCounts (Sharder.total shards) w.globalWorkers rot).length := by
      rw [Sharder.workerCounts_length]; exact hlt
    have b6 := Sharder.workerCounts_mem (Sharder.total shards) w.globalWorkers rot hgp h53
      ((Sharder.workerCounts (Sharder.total shards) w.globalWorkers rot).getD (w.rank * w.workers + i) 0) (by
        rw [List.getD_eq_getElem?_getD, List.getElem?_eq_getElem hl, Option.getD_some]
        exact List.getElem_mem hl)
    have b7 : 1 ≤ Sharder.total shards / w.globalWorkers := (Nat.le_div_iff_mul_le hgp).2 (by rw [Nat.one_mul]; exact hen)
    simp only [List.length_nil] at b3
    omega

/-- The slices of worker `i`: there are some (they are not empty; if there are enough samples there is at least one); no two have the
same key. -/
theorem slicesFor_ok {d : Disk B C} (hd : d.Ok) {w : Sharder.WorkerConfig} (hr : w.rank < w.worldSize) (rot : Nat) {i : Nat}
    (hi : i < w.workers) :
    ∃ p : List Sharder.Subshards, slicesFor d w rot i = .ok (p.map fun s => mkSlice d.tars s.head.name s.head.offset s.head.count) ∧
      (∀ s ∈ p, 0 < s.head.count) ∧ (p.map fun s => (s.head.name, s.head.offset)).Nodup ∧
      (Sharder.samplesOf p).Sublist (Sharder.samplesOf d.shards) ∧ (d.Enough w → p ≠ []) ∧
      Sharder.reads (Sharder.shardWorkers d.shards w d.maxSamples rot) i = Sharder.samplesOf p := by
  obtain ⟨ps, p, h1, hg, h⟩ := parts_ok hd.whole hd.nonempty hd.size hd.names hd.maxSamples hr rot hi
  refine ⟨p, ?_, h⟩
  unfold slicesFor
  rw [h1]
  simp only [hg]

end Verif.Pipeline
