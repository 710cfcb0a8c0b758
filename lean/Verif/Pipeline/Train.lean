import Verif.Pipeline.Slices
import Verif.Pipeline.Endless
import Verif.Pipeline.Guard
import Verif.Wrap.BlendProps
import Verif.Wrap.GroupProps
import Verif.Wrap.MapGenProps

/-! # The assembled training dataset -/

namespace Verif.Pipeline

open Verif.Stream Verif.Wds

variable {B C K ρ : Type}

/-- What is used about a source of training samples. -/
structure Src {σ κ : Type} (D : Dataset σ (Smp C) κ) : Prop where
  resumes : D.ResumesExactly
  restores : D.RestoresSamples
  endless : D.NeverEnds

theorem loaderCfg_valid {d : Disk B C} (hd : d.Ok) (training : Bool) (hp : training = true ∨ d.parallel = none)
    {p : List Sharder.Subshards} (h : ∀ s ∈ p, 0 < s.head.count) :
    Valid (loaderCfg d training (p.map fun s => mkSlice d.tars s.head.name s.head.offset s.head.count)) where
  count := by
    intro s hs
    obtain ⟨t, ht, rfl⟩ := List.mem_map.1 hs
    exact h t ht
  pos := by
    unfold loaderCfg
    simp only
    cases hq : d.parallel with
    | none => cases training <;> simp
    | some n => simpa using hd.parallel n hq
  one := by
    unfold loaderCfg
    simp only
    cases training with
    | true => intro h; exact absurd h hd.mode
    | false =>
      intro _
      rcases hp with hp | hp
      · cases hp
      · rw [hp]; rfl

theorem ids_nodup (d : Disk B C) (training : Bool) {p : List Sharder.Subshards} (h : (p.map fun s => (s.head.name, s.head.offset)).Nodup) :
    ((loaderCfg d training (p.map fun s => mkSlice d.tars s.head.name s.head.offset s.head.count)).shards.map (·.id)).Nodup := by
  unfold loaderCfg
  simp only [List.map_map]
  exact h

/-- The dataset built for a part of the training data. -/
theorem buildPart_train (R : WRng ρ) {d : Disk B C} (hd : d.Ok) {w : Sharder.WorkerConfig} (hr : w.rank < w.worldSize) (rot : Nat) {i : Nat}
    (hi : i < w.workers) (hen : d.Enough w) :
    ∃ D, buildPart R d true w rot i = .ok D ∧ Src D ∧ D.hasSamples = true := by
  obtain ⟨p, h1, h2, h3, h4, h5, _⟩ := slicesFor_ok hd hr rot hi
  refine ⟨_, by unfold buildPart; rw [h1], ?_, ?_⟩
  · have hids := ids_nodup d true h3
    have hv := loaderCfg_valid hd true (.inl rfl) h2
    have hne : (loaderCfg d true (p.map fun s => mkSlice d.tars s.head.name s.head.offset s.head.count)).shards ≠ [] := by
      simpa [loaderCfg] using h5 hen
    refine ⟨C13_map_resumes _ _ _ _ (C33_resumes hids false), C34_map _ _ _ ?_, map_neverEnds ?_⟩
    · refine C34_loader_raw R d.tars hd.tars _ hids ?_ false
      intro s hs
      obtain ⟨t, ht, rfl⟩ := List.mem_map.1 hs
      exact ⟨_, _, _, rfl⟩
    · by_cases hm : (loaderCfg d true (p.map fun s => mkSlice d.tars s.head.name s.head.offset s.head.count)).mode = .replace
      · exact C32_replacement_never_ends hids hv hm hne false
      · exact C32_never_ends hids hv hm rfl hne false
  · have h6 := h5 hen
    obtain ⟨s, hs⟩ := List.exists_mem_of_ne_nil p h6
    show List.any _ _ = true
    rw [List.any_eq_true]
    exact ⟨_, List.mem_map.2 ⟨s, hs, rfl⟩, decide_eq_true (h2 s hs)⟩

theorem buildParts_train (R : Rngs ρ) {w : Sharder.WorkerConfig} (hr : w.rank < w.worldSize) {i : Nat} (hi : i < w.workers)
    (l : List (Disk B C × Nat)) (h : ∀ q ∈ l, q.1.Ok ∧ q.1.Enough w) (j : Nat) :
    ∃ Ds, buildParts R true w i j l = .ok Ds ∧ Ds.length = l.length ∧ ∀ D ∈ Ds, Src D ∧ D.hasSamples = true := by
  induction l generalizing j with
  | nil => exact ⟨[], rfl, rfl, by simp⟩
  | cons q l ih =>
    obtain ⟨d, rot⟩ := q
    obtain ⟨h1, h2⟩ := h (d, rot) (by simp)
    obtain ⟨D, g1, g2⟩ := buildPart_train (R.reader j) h1 hr rot hi h2
    obtain ⟨Ds, k1, k2, k3⟩ := ih (fun q hq => h q (by simp [hq])) (j + 1)
    refine ⟨D :: Ds, by simp only [buildParts, g1, k1], by simp [k2], ?_⟩
    intro E hE
    rcases List.mem_cons.1 hE with rfl | hE
    · exact g2
    · exact k3 E hE

theorem nth_mem {σ κ : Type} (D : Dataset σ (Smp C) κ) (Ds : List (Dataset σ (Smp C) κ)) (k : Nat) : nth D Ds k ∈ D :: Ds := by
  unfold nth
  by_cases h : k < (D :: Ds).length
  · rw [List.getD_eq_getElem?_getD, List.getElem?_eq_getElem h, Option.getD_some]
    exact List.getElem_mem h
  · rw [List.getD_eq_getElem?_getD, List.getElem?_eq_none (by omega)]
    simp

/-- The source of training samples is built, resumes, restores samples by key and never ends. -/
theorem trainSource_ok (R : Rngs ρ) {ds : List (Disk B C)} (hne : ds ≠ []) {w : Sharder.WorkerConfig} (hr : w.rank < w.worldSize) {i : Nat}
    (hi : i < w.workers) (h : ∀ d ∈ ds, d.Ok ∧ d.Enough w) : ∃ A, trainSource R ds w i = .ok A ∧ Src A.D := by
  match ds, hne, h with
  | [d], _, h =>
    obtain ⟨D, g1, g2, _⟩ := buildPart_train (R.reader 0) (h d (by simp)).1 hr 0 hi (h d (by simp)).2
    exact ⟨⟨_, _, D⟩, by simp only [trainSource, g1], g2⟩
  | d :: d' :: l, _, h =>
    obtain ⟨Ds, g1, g2, g3⟩ := buildParts_train R hr hi
      ((d :: d' :: l).zip (Sharder.rotationOffsets ((d :: d' :: l).map Disk.len) w.globalWorkers))
      (fun q hq => h q.1 (List.of_mem_zip hq).1) 0
    cases Ds with
    | nil =>
      simp [Sharder.rotationOffsets] at g2
    | cons D Ds =>
      refine ⟨⟨_, _, blendD (nth D Ds) (Ds.length + 1) R.blend⟩, by simp only [trainSource, g1], ?_⟩
      have hk : ∀ k, Src (nth D Ds k) ∧ (nth D Ds k).hasSamples = true := fun k => g3 _ (nth_mem D Ds k)
      exact ⟨C16_blend_resumes _ _ _ fun k => (hk k).1.resumes,
        C17_blend_restores_partial _ _ _ _ (fun k _ => (hk k).2) fun k => (hk k).1.restores, C15_blend_never_ends _ _ _ _⟩

theorem shuffleStage_ok (R : Rngs ρ) (size : Option Nat) {A : AnyDs C} (h : Src A.D) : Src (shuffleStage R size A).D := by
  cases size with
  | none => exact h
  | some n =>
    by_cases hn : 1 < n
    · have e : shuffleStage R (some n) A = ⟨_, _, shuffleD A.D R.shuffle n⟩ := if_pos hn
      rw [e]
      exact ⟨C11_shuffle_resumes_partial _ _ _ (by omega) h.resumes h.restores h.endless, C34_shuffle _ _ _ (by omega) h.restores,
        shuffle_neverEnds _ _ _ (by omega) h.restores h.endless⟩
    · have e : shuffleStage R (some n) A = A := if_neg hn
      rw [e]
      exact h

/-- `f` is not a generator function. -/
def UserMap.Plain : UserMap C → Prop
  | .plain _ _ => True
  | .gen _ _ => False

/-- The function is marked stateless. -/
def UserMap.stateless : UserMap C → Prop
  | .plain _ st => st = true
  | .gen _ st => st = true

theorem mapStage_resumes {u : Option (UserMap C)} (hu : ∀ f, u = some f → f.Plain) {A : AnyDs C} (h : A.D.ResumesExactly) :
    (mapStage u A).D.ResumesExactly := by
  unfold mapStage
  split
  · exact h
  · exact C13_map_resumes _ _ _ _ h
  · exact (hu _ rfl).elim

theorem mapStage_endless {u : Option (UserMap C)} (hu : ∀ f, u = some f → f.Plain) {A : AnyDs C} (h : A.D.NeverEnds) :
    (mapStage u A).D.NeverEnds := by
  unfold mapStage
  split
  · exact h
  · exact map_neverEnds h
  · exact (hu _ rfl).elim

theorem mapStage_restores {u : Option (UserMap C)} (hu : ∀ f, u = some f → f.stateless) {r : Bool} {A : AnyDs C}
    (h : A.D.RestoresSamples r) : (mapStage u A).D.RestoresSamples r := by
  unfold mapStage
  split
  · exact h
  · obtain rfl : _ = true := hu _ rfl
    exact C34_map _ _ _ h
  · obtain rfl : _ = true := hu _ rfl
    exact C34_map_generator _ _ _ h

/-- The task encoder has no generator functions and does not group; if it packs, the functions before are stateless, the selection for packs
only selects from the buffer and the final packer is no generator function either. -/
structure Encoder.Simple (E : Encoder C K) (packing : Option Nat) : Prop where
  cook : ∀ f, E.cook = some f → f.Plain
  encode : ∀ f, E.encode = some f → f.Plain
  encodeBatch : ∀ f, E.encodeBatch = some f → f.Plain
  group : E.group = none
  pack : packing.isSome → (∀ f, E.cook = some f → f.stateless) ∧ (∀ f, E.encode = some f → f.stateless) ∧
    ∀ p, E.pack = some p → PreSub p.1 ∧ p.2.1 = false ∧ ∃ f, p.2.2 = plainFinal f

/-- Whether the methods of the task encoder fit the parameters: with packing, the packing methods are there; without batch size, batches are
not encoded and (without grouping) `batch` is not overridden. -/
structure Encoder.Fits (E : Encoder C K) (batchSize packing : Option Nat) : Prop where
  pack : packing.isSome → E.pack.isSome
  batch : E.group = none → batchSize = none → E.encodeBatch = none ∧ E.batchOverridden = false

theorem buildBatch_ok [DecidableEq K] {E : Encoder C K} {batchSize packing : Option Nat} (h : E.Fits batchSize packing) (dl : Bool)
    (A : AnyDs C) : ∃ A', buildBatch E batchSize dl packing A = .ok A' := by
  unfold buildBatch
  have h1 : ∃ A', packStage E packing A = .ok A' := by
    unfold packStage
    cases hp : packing with
    | none => exact ⟨_, rfl⟩
    | some n =>
      obtain ⟨q, hq⟩ := Option.isSome_iff_exists.1 (h.pack (by rw [hp]; rfl))
      simp only [hq]
      exact ⟨_, rfl⟩
  obtain ⟨A', h1⟩ := h1
  rw [h1]
  simp only
  unfold batchStage
  cases hg : E.group with
  | some key => exact ⟨_, rfl⟩
  | none =>
    simp only
    cases hb : batchSize with
    | some n => exact ⟨_, rfl⟩
    | none =>
      obtain ⟨e1, e2⟩ := h.batch hg hb
      simp [e1, e2]

theorem buildBatch_resumes [DecidableEq K] {E : Encoder C K} {batchSize packing : Option Nat} (h : E.Simple packing) (dl : Bool)
    {A A' : AnyDs C} (hR : packing.isSome → A.D.RestoresSamples) (hD : A.D.ResumesExactly) (hN : A.D.NeverEnds)
    (hb : buildBatch E batchSize dl packing A = .ok A') : A'.D.ResumesExactly ∧ A'.D.NeverEnds := by
  unfold buildBatch at hb
  have h1 : ∃ A1, packStage E packing A = .ok A1 ∧ A1.D.ResumesExactly ∧ A1.D.NeverEnds := by
    unfold packStage at hb ⊢
    cases hp : packing with
    | none => exact ⟨_, rfl, hD, hN⟩
    | some n =>
      simp only [hp] at hb ⊢
      have hs : packing.isSome := by rw [hp]; rfl
      cases hq : E.pack with
      | none => simp [hq] at hb
      | some q =>
        obtain ⟨pre, gen, f⟩ := q
        obtain ⟨e1, e2, f', e3⟩ := (h.pack hs).2.2 _ hq
        simp only at e1 e2 e3
        subst e2 e3
        exact ⟨_, rfl, onlyIf_resumes (C31_packing_resumes_endless_partial _ _ _ e1 _ hD (hR hs) hN), onlyIf_neverEnds (pack_neverEnds hN)⟩
  obtain ⟨A1, h1, h2, h3⟩ := h1
  rw [h1] at hb
  simp only at hb
  unfold batchStage at hb
  rw [h.group] at hb
  simp only at hb
  cases hbs : batchSize with
  | some n =>
    simp only [hbs] at hb
    cases hb
    exact ⟨mapStage_resumes h.encodeBatch (onlyIf_resumes (C51_batch_resumes_endless _ _ _ _ h2 h3)),
      mapStage_endless h.encodeBatch (onlyIf_neverEnds (batch_neverEnds _ _ _ _ h3))⟩
  | none =>
    simp only [hbs] at hb
    split at hb
    · cases hb
    · cases hb
      exact ⟨h2, h3⟩

theorem buildBatch_restores [DecidableEq K] {E : Encoder C K} {batchSize packing : Option Nat} {dl r : Bool}
    (hpack : packing.isSome → E.packStateless = true ∧ ∀ p, E.pack = some p → PreSub p.1 ∧ (p.2.1 = false → ∃ f, p.2.2 = plainFinal f))
    (hgroup : E.group = none)
    (hbatch : ∀ n, batchSize = some n → E.batchStateless = true ∧ 0 < n ∧ ∀ i b, (E.batch i b).ok?.isSome)
    (hen : ∀ f, E.encodeBatch = some f → f.stateless)
    {A A' : AnyDs C} (hR : A.D.RestoresSamples r) (hb : buildBatch E batchSize dl packing A = .ok A') : A'.D.RestoresSamples r := by
  unfold buildBatch at hb
  have h1 : ∀ A1, packStage E packing A = .ok A1 → A1.D.RestoresSamples r := by
    intro A1 h1
    unfold packStage at h1
    split at h1
    · cases h1; exact hR
    · split at h1
      · cases h1
      · rename_i _ _ pre gen f hp
        cases h1
        obtain ⟨e0, e1⟩ := hpack rfl
        obtain ⟨e1, e2⟩ := e1 _ hp
        rw [e0]
        exact onlyIf_restores (C34_packing _ _ _ e1 _ _ e2 _ hR)
  cases hp : packStage E packing A with
  | error e => rw [hp] at hb; cases hb
  | ok A1 =>
    rw [hp] at hb
    have h2 := h1 A1 hp
    simp only at hb
    unfold batchStage at hb
    rw [hgroup] at hb
    simp only at hb
    split at hb
    · cases hb
      obtain ⟨e0, e1, e2⟩ := hbatch _ rfl
      rw [e0]
      exact mapStage_restores hen (onlyIf_restores (C34_batch _ _ e1 _ _ _ e2 h2))
    · split at hb
      · cases hb
      · cases hb
        exact h2

theorem epochStage_resumes {length nw i : Nat} {A : AnyDs C} (h : A.D.ResumesExactly) :
    (epochStage length nw i A).D.ResumesUpToEnd ∧ (length = 0 → (epochStage length nw i A).D.ResumesExactly) := by
  by_cases hl : 0 < length
  · have e : epochStage length nw i A = ⟨_, _, epochizeD A.D length nw i⟩ := if_pos hl
    rw [e]
    exact ⟨C21_epochize_resumes_partial _ _ _ _ h, by omega⟩
  · have e : epochStage length nw i A = A := if_neg hl
    rw [e]
    exact ⟨fun s hs => .inl (h s hs), fun _ => h⟩

theorem logStage_resumes {logging : Bool} {A : AnyDs C} (h : A.D.ResumesExactly) : (logStage logging A).D.ResumesExactly := by
  cases logging with
  | true => exact C12_log_resumes _ _ h
  | false => exact h

theorem logStage_upToEnd {logging : Bool} {A : AnyDs C} (h : A.D.ResumesUpToEnd) : (logStage logging A).D.ResumesUpToEnd := by
  cases logging with
  | true => exact log_resumesUpToEnd h
  | false => exact h

theorem logStage_restores {logging r : Bool} {A : AnyDs C} (h : A.D.RestoresSamples r) : (logStage logging A).D.RestoresSamples r := by
  cases logging with
  | true => exact C34_log _ _ h
  | false => exact h

/-- **C65.** The dataset that `get_train_dataset` builds (any number of blended datasets, any sharding, shuffle buffer, parallel shard readers, cooking, encoding,
packing, batching, virtual epochs, logging) is built and resumes exactly in every worker: saved at any point in any worker, in any history, the restored process
delivers the same samples for ever. Exactly without virtual epochs; with virtual epochs, only the report of the end of an epoch that is due at the very moment of
saving is left out. This part is for task encoders without generator functions and grouping, and datasets that have a sample for each worker; otherwise see
`C65_violated_small_part`, and C14, C28, C31. -/
theorem C65_train_resumes_partial [DecidableEq K] (R : Rngs ρ) (E : Encoder C K) (ds : List (Disk B C)) (o : TrainOpts) (w : Sharder.WorkerConfig) (i : Nat)
    (hne : ds ≠ []) (hds : ∀ d ∈ ds, d.Ok ∧ d.Enough w) (hr : w.rank < w.worldSize) (hi : i < w.workers)
    (hE : E.Simple o.packing) (hF : E.Fits o.batchSize o.packing) :
    ∃ A, trainDs R E ds o w i = .ok A ∧ A.D.ResumesUpToEnd ∧ (o.epochLength = 0 → A.D.ResumesExactly) := by
  obtain ⟨A, h1, h2⟩ := trainSource_ok R hne hr hi hds
  have h3 := shuffleStage_ok R o.shuffleSize h2
  obtain ⟨A', h4⟩ := buildBatch_ok hF o.dropLast (mapStage E.encode (mapStage E.cook (shuffleStage R o.shuffleSize A)))
  have h5 := buildBatch_resumes hE o.dropLast (fun hs => mapStage_restores (hE.pack hs).2.1 (mapStage_restores (hE.pack hs).1 h3.restores))
    (mapStage_resumes hE.encode (mapStage_resumes hE.cook h3.resumes))
    (mapStage_endless hE.encode (mapStage_endless hE.cook h3.endless)) h4
  refine ⟨logStage o.logging (epochStage o.epochLength w.numWorkers i A'), by simp only [trainDs, h1, h4], ?_, ?_⟩
  · exact logStage_upToEnd (epochStage_resumes h5.1).1
  · intro h0
    exact logStage_resumes ((epochStage_resumes h5.1).2 h0)

end Verif.Pipeline
