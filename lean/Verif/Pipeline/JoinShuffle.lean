import Verif.Pipeline.Join
import Verif.Pipeline.Example
import Verif.Pipeline.Loader
import Verif.Wrap.ShuffleProps

/-!
# Training on joined datasets with a shuffle buffer cannot be resumed

Source: /repo src/megatron/energon/wrappers/shuffle_buffer_dataset.py, buffer.py:59-70, flavors/webdataset/joined_webdataset.py:218-242, sample_loader.py:554-584.
-/

namespace Verif.Stream

variable {σ κ C ρ : Type} {D : Dataset σ (Smp C) κ} {R : Rng ρ} {size : Nat}

/-- No delivered sample can be restored from its restore key. -/
def Dataset.Lost (D : Dataset σ (Smp C) κ) (r : Bool := false) : Prop := ∀ a, D.Yields r a → D.restoreSample a.key = none

theorem shuffle_lost_inv (hL : D.Lost) :
    WInv (Source.single D) (shuffleW D R size) (D.Paused false)
      (fun x => (∀ a ∈ x.buf, D.restoreSample a.key = none) ∧ (x.ctl = .drain → ¬ D.NeverEnds))
      (fun x => (∀ a ∈ x.buf, D.restoreSample a.key = none) ∧ (x.ctl = .drain → ¬ D.NeverEnds)) := by
  refine WInv.mk' shuffle_noReset (fun _ h => h) ?_ ?_ ?_ ?_ ?_
  · rintro x b x' ⟨h1, h2⟩ h
    rcases shuffle_act_cases (D := D) (R := R) (size := size) x with ⟨i, g, hi, hc, _, he⟩ | ⟨hc, _, he⟩ | ⟨_, _, he⟩ | ⟨_, he⟩ <;>
      rw [h] at he <;> cases he
    exact ⟨fun a ha => h1 a (List.mem_of_mem_eraseIdx ha), h2⟩
  · rintro x x' ⟨h1, h2⟩ h
    rcases shuffle_act_cases (D := D) (R := R) (size := size) x with ⟨i, g, hi, hc, _, he⟩ | ⟨hc, _, he⟩ | ⟨_, h5, he⟩ | ⟨_, he⟩ <;>
      rw [h] at he <;> cases he
    exact ⟨h1, by simp⟩
  · rintro x x' ⟨h1, h2⟩ h
    rcases shuffle_act_cases (D := D) (R := R) (size := size) x with ⟨i, g, hi, hc, _, he⟩ | ⟨hc, _, he⟩ | ⟨_, h5, he⟩ | ⟨_, he⟩ <;>
      rw [h] at he <;> cases he
  · rintro x i f g ⟨h1, h2⟩ h a ha
    rcases shuffle_act_cases (D := D) (R := R) (size := size) x with ⟨i, g, hi, hc, _, he⟩ | ⟨hc, h5, he⟩ | ⟨_, h5, he⟩ | ⟨_, he⟩ <;>
      rw [h] at he <;> cases he
    refine ⟨?_, ?_⟩
    · intro b hb
      rcases List.mem_append.1 hb with hb | hb
      · exact h1 b hb
      · rw [List.mem_singleton.1 hb]; exact hL a ha
    · intro h; simp only [hc] at h; cases h
  · rintro x i f g ⟨h1, h2⟩ h hn
    rcases shuffle_act_cases (D := D) (R := R) (size := size) x with ⟨i, g, hi, hc, _, he⟩ | ⟨hc, h5, he⟩ | ⟨_, h5, he⟩ | ⟨_, he⟩ <;>
      rw [h] at he <;> cases he
    exact ⟨h1, fun _ => hn⟩

theorem mapM_lost {l : List (Smp C)} (h : ∀ a ∈ l, D.restoreSample a.key = none) (hl : l ≠ []) : (l.map (·.key)).mapM D.restoreSample = none := by
  cases l with
  | nil => exact absurd rfl hl
  | cons a l => simp [List.mapM_cons, h a (by simp)]

/-- While a buffered sample is emitted by a never ending shuffle, other samples stay in the buffer. -/
theorem shuffle_left (hN : D.NeverEnds) {s : σ} {x : ShufX ρ C} {o : Stream.Out (σ × ShufX ρ C) (Smp C)} (h : WObs (Source.single D) (shuffleW D R size) s x o) :
    D.Paused false s → x.ctl ≠ .drain → ∀ a q, o = .item a q → size ≤ q.2.buf.length + 1 := by
  induction h with
  | @emit s x b x' h =>
    intro _ hc a q hq
    cases hq
    rcases shuffle_act_cases (D := D) (R := R) (size := size) x with ⟨i, g, hi, hd, hf, he⟩ | ⟨hc2, _, he⟩ | ⟨hc2, _, he⟩ | ⟨_, he⟩ <;>
      rw [h] at he <;> cases he
    have : x.ctl = .fill := by
      cases hcc : x.ctl with
      | fill => rfl
      | drain => exact absurd hcc hc
      | dead => exact absurd hcc hd
    have := hf this
    simp only [List.length_eraseIdx, hi, if_true]
    omega
  | raise h => intro _ _ a q hq; cases hq
  | pullErr h => intro _ _ a q hq; cases hq
  | reset h => exact absurd h (shuffle_noReset _ _)
  | halt h => intro _ _ a q hq; cases hq
  | @tau s x x' o h =>
    rcases shuffle_act_cases (D := D) (R := R) (size := size) x with ⟨i, g, hi, _, _, he⟩ | ⟨hc2, _, he⟩ | ⟨hc2, _, he⟩ | ⟨_, he⟩ <;>
      rw [h] at he <;> cases he
  | @pullItem s x i f g a s' o h hs _ ih =>
    intro hp hc
    rcases shuffle_act_cases (D := D) (R := R) (size := size) x with ⟨i, g, hi, _, _, he⟩ | ⟨hc2, _, he⟩ | ⟨hc2, _, he⟩ | ⟨_, he⟩ <;>
      rw [h] at he <;> cases he
    exact ih (.item hp hs) hc
  | @pullFin s x i f g s' o h hs _ ih => intro hp; exact absurd hs (hN _ _ hp)

/-- A shuffle buffer over a never ending dataset whose samples cannot be restored: after every delivered sample, saving and resuming fails. -/
theorem shuffle_lost (hL : D.Lost) (hN : D.NeverEnds) (hs : 1 < size) {t t' : σ × ShufX ρ C} {a : Smp C} (ht : (shuffleD D R size).Paused false t)
    (h : Obs (shuffleD D R size).step t (.item a t')) :
    Obs (shuffleD D R size).step ((shuffleD D R size).resume ((shuffleD D R size).save t')) .err := by
  have key : ∀ {p : σ × ShufX ρ C}, (shuffleD D R size).Paused false p →
      D.Paused false p.1 ∧ (∀ a ∈ p.2.buf, D.restoreSample a.key = none) ∧ (p.2.ctl = .drain → ¬ D.NeverEnds) := by
    intro p hp
    refine wrap_paused (W := shuffleW D R size) (shuffle_lost_inv hL) ⟨?_, ?_⟩ ?_ (by simp) hp
    · simp [shuffleW]
    · simp [shuffleW]
    · rintro x ⟨h1, h2⟩
      by_cases hx : x.buf = []
      · have : (shuffleW D R size).resume ((shuffleW D R size).save x) = ⟨[], x.rng, .fill⟩ := by simp [shuffleW, hx]
        rw [this]
        exact ⟨by simp, by simp⟩
      · have : (shuffleW D R size).resume ((shuffleW D R size).save x) = ⟨[], x.rng, .dead⟩ := by simp only [shuffleW, mapM_lost h1 hx]
        rw [this]
        exact ⟨by simp, by simp⟩
  obtain ⟨h1, _, h3⟩ := key ht
  have h4 := shuffle_left hN (wrap_obs.1 h) h1 (fun hc => h3 hc hN) a t' rfl
  obtain ⟨_, h5, _⟩ := key (.item ht h)
  have hb : t'.2.buf ≠ [] := by
    intro e
    rw [e] at h4
    simp at h4
    omega
  have hr : (shuffleW D R size).resume ((shuffleW D R size).save t'.2) = ⟨[], t'.2.rng, .dead⟩ := by simp only [shuffleW, mapM_lost h5 hb]
  refine wrap_obs.2 ?_
  show WObs _ _ _ ((shuffleW D R size).resume ((shuffleW D R size).save t'.2)) _
  rw [hr]
  exact .raise rfl

end Verif.Stream

namespace Verif.Pipeline

open Verif.Stream Verif.Wds

variable {B C ρ : Type}

/-- The samples of a joined dataset cannot be restored. -/
theorem jPart_lost (R : WRng ρ) {d : JDisk B C} (hj : d.joined = true) (training : Bool) {slices : List (Sharder.Subshards)}
    (hids : ((jLoaderCfg d training (slices.map (jSlice d))).shards.map (·.id)).Nodup) : (jPartD R d training (slices.map (jSlice d))).Lost := by
  rintro a ⟨s, s', hp, ho⟩
  obtain ⟨n, b, hb, he⟩ := loopW_emits hp ho
  have hm := C32_only_own_samples hids false b hb
  obtain ⟨l, hl, hbl⟩ := List.mem_flatten.1 hm
  obtain ⟨sl, hsl, rfl⟩ := List.mem_map.1 hl
  simp only [jLoaderCfg, List.mem_map] at hsl
  obtain ⟨S, _, rfl⟩ := hsl
  simp only [jSlice, List.mem_map] at hbl
  obtain ⟨row, _, rfl⟩ := hbl
  have hk : d.keyOf row = joinedKey row := by unfold JDisk.keyOf; rw [if_pos hj]
  unfold mapBody at he
  split at he <;> cases he
  have hshow : ∀ c : C, (Smp.addKey [Key.str "MapDataset", Key.num n] ⟨c, d.keyOf row⟩).key = .str "MapDataset" :: .num n :: d.keyOf row := fun _ => rfl
  unfold jPartD mapD wrap loopW
  dsimp only
  rw [hshow]
  have hr : restoreJ d (joinedKey row) = none := by
    unfold joinedKey restoreJ
    dsimp only
    cases keyPairs (combineKeys row) with
    | none => rfl
    | some ps => rfl
  unfold mapRestore
  simp only [hk]
  have : (loaderD R (jLoaderCfg d training (slices.map (jSlice d))) (restoreJ d)).restoreSample (joinedKey row) = none := hr
  simp [this]

/-- **C108 is violated for every training on a joined dataset with a shuffle buffer** of two or more samples (as usual): whenever the dataset behind the shuffle buffer has delivered a sample, the state saved then cannot
be used: after `restore_state` the next sample is an error. The restore keys of joined samples start with `"JoinedWebdatasetFactory"`, while restoring a sample requires `"Webdataset"`. -/
theorem C108_violated_shuffle (R : WRng ρ) (Rs : Rng ρ) {d : JDisk B C} (hd : d.Ok) (hj : d.joined = true) {w : Sharder.WorkerConfig} (hr : w.rank < w.worldSize) (rot : Nat) {i : Nat}
    (hi : i < w.workers) (hen : w.globalWorkers ≤ d.len) {n : Nat} (hn : 1 < n) :
    ∃ D, jBuildPart R d true w rot i = .ok D ∧
      ∀ t a t', (shuffleD D Rs n).Paused false t → Obs (shuffleD D Rs n).step t (.item a t') →
        Obs (shuffleD D Rs n).step ((shuffleD D Rs n).resume ((shuffleD D Rs n).save t')) .err := by
  obtain ⟨p, h1, _, h3, _⟩ := jSlicesFor_ok hd hr rot hi
  obtain ⟨D, h4, _, h6⟩ := jBuildPart_train R hd hr rot hi hen
  have e : D = jPartD R d true (p.map (jSlice d)) := by
    unfold jBuildPart at h4
    rw [h1] at h4
    exact (Except.ok.inj h4).symm
  subst e
  refine ⟨_, h4, fun t a t' ht ho => ?_⟩
  refine shuffle_lost (jPart_lost R hj true ?_) h6 hn ht ho
  unfold jLoaderCfg
  simp only [List.map_map]
  exact h3

/-! ### Example -/

/-- One shard of `n` samples with the contents `first`, `first + 1`, ... -/
def exCol (name : String) (first n : Nat) : Column Nat :=
  { shards := [⟨name, 0, n, none, none⟩], tars := fun s => if s = name then exTarN first n else [] }

/-- Two joined datasets; a joined sample is loaded as the pair of its contents. -/
def exJ (n : Nat) : JDisk Nat Nat :=
  { first := exCol "a" 10 n, others := [exCol "b" 100 n]
    load := fun _ a => .ok ((a.content.map fun o => match o with | some s => (s.content.parts.map (·.2)).sum | none => 0).foldl (fun x y => 1000 * x + y) 0) }

theorem exJ_agree : ∀ n ≤ 6, (groups (entries (exTarN 100 n))).map baseOf = (groups (entries (exTarN 10 n))).map baseOf := by decide +kernel

theorem exJ_ok {n : Nat} (h : n ≤ 6) : (exJ n).Ok where
  canJoin := by
    intro c hc
    simp only [exJ, List.mem_singleton] at hc
    subst hc
    rfl
  agree := by
    intro c hc j s t hs ht
    simp only [exJ, List.mem_singleton] at hc
    subst hc
    cases j with
    | zero =>
      simp only [exJ, exCol, List.getElem?_cons_zero, Option.some.injEq] at hs ht
      subst hs ht
      simp only [exJ, exCol, if_true]
      exact exJ_agree n h
    | succ j => simp [exJ, exCol] at hs
  whole := by
    intro c hc s hs
    simp only [JDisk.cols, exJ, List.mem_cons, List.not_mem_nil, or_false] at hc
    rcases hc with rfl | rfl <;> simp only [exCol, List.mem_singleton] at hs <;> subst hs <;> rfl
  counted := by
    intro c hc s hs
    simp only [JDisk.cols, exJ, List.mem_cons, List.not_mem_nil, or_false] at hc
    rcases hc with rfl | rfl <;> simp only [exCol, List.mem_singleton] at hs <;> subst hs <;> simp only [exCol, if_true]
    · exact exTarN_groups n h 10 (by simp)
    · exact exTarN_groups n h 100 (by simp)
  tars := by
    intro c hc s
    simp only [JDisk.cols, exJ, List.mem_cons, List.not_mem_nil, or_false] at hc
    rcases hc with rfl | rfl <;> simp only [exCol] <;> split
    · exact exTarN_sized _ _
    · intro m hm; cases hm
    · exact exTarN_sized _ _
    · intro m hm; cases hm
  nonempty := by simp [exJ, exCol]
  size := by simp only [JDisk.len, exJ, exCol, List.map_cons, List.map_nil, List.sum_cons, List.sum_nil]; omega
  names := by simp [exJ, exCol]
  parallel := by simp [exJ]
  maxSamples := by simp [exJ]
  mode := by simp [exJ]

/-- The joined samples are pairs of samples. -/
example : delivered (jValDs exR exE [exJ 5] ⟨1, false, none, none, true⟩ ⟨0, 1, 2⟩ 1) 20 = [some 26206, some 28208, none] := by decide +kernel

/-- Training -/
example : delivered (jTrainDs exR exE [exJ 5] exO ⟨0, 1, 1⟩ 0) 60 = [some 44404, some 50410, some 44404, some 52412] := by decide +kernel

/-- The hypotheses of `C108_train_resumes_partial` are met. -/
example : ∃ A, jTrainDs exR exE [exJ 4, exJ 6] ⟨some 2, false, none, 0, none, true⟩ ⟨1, 2, 2⟩ 1 = .ok A ∧ A.D.ResumesExactly := by
  obtain ⟨A, h1, _, h3⟩ := C108_train_resumes_partial exR exE [exJ 4, exJ 6] ⟨some 2, false, none, 0, none, true⟩ ⟨1, 2, 2⟩ 1 (by simp)
    (by
      intro d hd
      simp only [List.mem_cons, List.not_mem_nil, or_false] at hd
      rcases hd with rfl | rfl <;> exact ⟨exJ_ok (by decide), by decide⟩)
    (by decide) (by decide) ⟨by simp [exE], by simp [exE, UserMap.Plain], by simp [exE], rfl, by simp⟩ ⟨by simp, by simp⟩ (by simp) rfl
  exact ⟨A, h1, h3 rfl⟩

/-- The hypotheses of `C108_val_partial` are met, and of `C108_violated_shuffle`. -/
example : ∀ d ∈ [exJ 4, exJ 6], d.Ok ∧ d.parallel = none ∧ d.joined = true ∧ (⟨1, 2, 2⟩ : Sharder.WorkerConfig).globalWorkers ≤ d.len := by
  intro d hd
  simp only [List.mem_cons, List.not_mem_nil, or_false] at hd
  rcases hd with rfl | rfl <;> exact ⟨exJ_ok (by decide), rfl, rfl, by decide⟩

/-- The column datasets must match. -/
example : (match (⟨exCol "a" 10 3, [exCol "b" 100 4], fun _ _ => .skip, true, .over 1, none, none⟩ : JDisk Nat Nat).shards? with | .ok _ => true | .error _ => false) = false := by decide +kernel

/-- **C108 is violated** for the whole training: with the usual options it does not resume. -/
theorem C108_violated_training : ∃ (d : JDisk Nat Nat) (A : AnyDs Nat), d.Ok ∧ d.joined = true ∧
    jTrainDs exR exE [d] exO ⟨0, 1, 1⟩ 0 = .ok A ∧ ¬ A.D.ResumesExactly := by
  obtain ⟨A, h1, h2⟩ := broken_spec (X := jTrainDs exR exE [exJ 5] exO ⟨0, 1, 1⟩ 0) (n := 60) (k := 1) (by decide +kernel)
  exact ⟨exJ 5, A, exJ_ok (by decide), rfl, h1, h2⟩

end Verif.Pipeline
