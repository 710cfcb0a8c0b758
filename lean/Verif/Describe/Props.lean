import Verif.Describe.Spec
import Verif.Wrap.GroupProps
import Verif.Config.FieldProps
import Verif.Worker.Seed
import Mathlib.Data.List.Basic

/-! # C115: proofs -/

namespace Verif.Describe

/-! ## The config says exactly what `told` keeps -/

def ToldWorker.json (w : ToldWorker) : J :=
  .dictOf [("rank", .num w.rank), ("world_size", .num w.worldSize), ("num_workers", .num w.numWorkers),
    ("data_parallel_group", .opt (w.group.map fun n => (n : Int)))]

mutual
def describe : Told → J
  | .reader shards wc exclude loop shuffleOver parallel =>
    .dictOf [("type", .str "WebdatasetSampleLoaderDataset"), ("shards", .list (shards.map fun w => .list (w.map fun s => .list (s.map Sub.config)))), ("worker_config", wc.json),
      ("exclude", .list (exclude.map .str)), ("loop", .bool loop), ("shuffle_over_epochs", .opt shuffleOver), ("parallel_shard_iters", .num parallel)]
  | .map d fn cfg stateless =>
    .dictOf ([("type", .str "MapDataset"), ("dataset", describe d), ("map_fn", .str fn)] ++ entry "map_fn_config" cfg ++ [("map_fn_stateless", .bool stateless)])
  | .filter d fn cfg =>
    .dictOf ([("type", .str "FilterDataset"), ("dataset", describe d), ("filter_fn", .str fn)] ++ entry "filter_fn_config" cfg)
  | .iterMap d fn cfg len handler =>
    .dictOf ([("type", .str "IterMapDataset"), ("dataset", describe d), ("iter_map_fn", .str fn)] ++ entry "iter_map_fn_config" cfg ++
      [("len_map_fn", .str len), ("error_handler", .str handler)])
  | .batch d size batcher cfg stateless dropLast handler wc =>
    .dictOf ([("type", .str "BatchDataset"), ("batch_size", .num size), ("batcher", .str batcher)] ++ entry "batcher_config" cfg ++
      [("batcher_stateless", .bool stateless), ("drop_last", .bool dropLast), ("error_handler", .str handler), ("worker_config", wc.json), ("dataset", describe d)])
  | .group d key batcher cfg stateless dropLast handler wc =>
    .dictOf ([("type", .str "GroupBatchDataset"), ("bucket", .str key), ("batcher", .str batcher)] ++ entry "batcher_config" cfg ++
      [("batcher_stateless", .bool stateless), ("drop_last", .bool dropLast), ("error_handler", .str handler), ("worker_config", wc.json), ("dataset", describe d)])
  | .pack d size pre final stateless cfg handler wc =>
    .dictOf ([("type", .str "PackingDataset"), ("buffer_size", .num size), ("pre_packer", .str pre), ("final_packer", .str final), ("final_packer_stateless", .bool stateless)] ++
      entry "packer_config" cfg ++ [("error_handler", .str handler), ("worker_config", wc.json), ("dataset", describe d)])
  | .limit d length reset wc =>
    .dictOf [("type", .str "LimitDataset"), ("dataset", describe d), ("length", .num length), ("reset_after_epoch", .bool reset), ("worker_config", wc.json)]
  | .repeat d repeats wc => .dictOf [("type", .str "RepeatDataset"), ("dataset", describe d), ("repeats", .opt repeats), ("worker_config", wc.json)]
  | .epochize d length wc => .dictOf [("type", .str "EpochizeDataset"), ("dataset", describe d), ("length", .num length), ("worker_config", wc.json)]
  | .shuffle d size wc => .dictOf [("type", .str "ShuffleBufferDataset"), ("dataset", describe d), ("size", .num size), ("worker_config", wc.json)]
  | .concat ds => .dictOf [("type", .str "ConcatDataset"), ("datasets", .list (describeAll ds))]
  | .blend ds wc => .dictOf [("type", .str "BlendDataset"), ("dataset_weights", .list (describeParts ds)), ("worker_config", wc.json)]
  | .mix d => .dictOf [("type", .str "MixBatchDataset"), ("dataset", describe d)]
def describeAll : List Told → List J
  | [] => []
  | d :: ds => describe d :: describeAll ds
def describeParts : List (Told × Int) → List J
  | [] => []
  | (d, w) :: ds => .list [describe d, .num w] :: describeParts ds
end

theorem told_fn (f : Fn) : f.told = f.text := rfl
theorem told_cfg (c : Cfg) : c.told = c.shown := by
  cases c with
  | call j => rfl
  | value j =>
    cases j with
    | null => rfl
    | bool b => cases b <;> rfl
    | num n =>
      by_cases h : n = 0
      · subst h; rfl
      · have e : Cfg.told (.value (.num n)) = some (.num n) := by
          unfold Cfg.told
          split <;> simp_all
        rw [e]
        simp [Cfg.shown, J.truthy, h]
    | str x =>
      by_cases h : x = ""
      · subst h; rfl
      · have e : Cfg.told (.value (.str x)) = some (.str x) := by
          unfold Cfg.told
          split <;> simp_all
        rw [e]
        simp [Cfg.shown, J.truthy, h]
    | list l => cases l <;> rfl
    | dict k v => cases k <;> rfl
    | obj n => rfl

mutual
theorem config_told : (d : Ds) → config d = describe d.told
  | .reader .. => rfl
  | .map d .. => by simp only [config, Ds.told, describe, config_told d, told_fn, told_cfg]
  | .filter d .. => by simp only [config, Ds.told, describe, config_told d, told_fn, told_cfg]
  | .iterMap d .. => by simp only [config, Ds.told, describe, config_told d, told_fn, told_cfg]
  | .batch d .. => by simp only [config, Ds.told, describe, config_told d, told_fn, told_cfg]; rfl
  | .group d .. => by simp only [config, Ds.told, describe, config_told d, told_fn, told_cfg]; rfl
  | .pack d .. => by simp only [config, Ds.told, describe, config_told d, told_fn, told_cfg]; rfl
  | .limit d .. => by simp only [config, Ds.told, describe, config_told d, told_fn, told_cfg]; rfl
  | .repeat d .. => by simp only [config, Ds.told, describe, config_told d, told_fn, told_cfg]; rfl
  | .epochize d .. => by simp only [config, Ds.told, describe, config_told d, told_fn, told_cfg]; rfl
  | .shuffle d .. => by simp only [config, Ds.told, describe, config_told d, told_fn, told_cfg]; rfl
  | .concat ds _ => by simp only [config, Ds.told, describe, configs_told ds]
  | .blend ds _ => by simp only [config, Ds.told, describe, weighted_told ds]; rfl
  | .mix d _ => by simp only [config, Ds.told, describe, config_told d, told_fn, told_cfg]
  | .log d .. => by simp only [config, Ds.told, config_told d, told_fn, told_cfg]
  | .gc d .. => by simp only [config, Ds.told, config_told d, told_fn, told_cfg]
theorem configs_told : (ds : List Ds) → configs ds = describeAll (toldAll ds)
  | [] => rfl
  | d :: ds => by simp only [configs, toldAll, describeAll, config_told d, configs_told ds]
theorem weighted_told : (ds : List (Ds × Int)) → weighted ds = describeParts (toldParts ds)
  | [] => rfl
  | (d, w) :: ds => by simp only [weighted, toldParts, describeParts, config_told d, weighted_told ds]
end

theorem opt_inj {a b : Option Int} (h : J.opt a = J.opt b) : a = b := by
  cases a <;> cases b <;> simp [J.opt] at h ⊢
  exact h

theorem opt_nat_inj {a b : Option Nat} (h : J.opt (a.map fun n => (n : Int)) = J.opt (b.map fun n => (n : Int))) : a = b := by
  have := opt_inj h
  cases a <;> cases b <;> simp at this ⊢
  omega

theorem json_inj {a b : ToldWorker} (h : a.json = b.json) : a = b := by
  obtain ⟨a1, a2, a3, a4⟩ := a
  obtain ⟨b1, b2, b3, b4⟩ := b
  simp only [ToldWorker.json, J.dictOf, List.map_cons, List.map_nil, J.dict.injEq, List.cons.injEq, J.num.injEq, and_true, true_and] at h
  obtain ⟨h1, h2, h3, h4⟩ := h
  rw [Int.ofNat.inj h1, Int.ofNat.inj h2, Int.ofNat.inj h3, opt_nat_inj h4]

theorem sub_inj {a b : Sub} (h : a.config = b.config) : a = b := by
  obtain ⟨a1, a2, a3, a4, a5, a6⟩ := a
  obtain ⟨b1, b2, b3, b4, b5, b6⟩ := b
  simp only [Sub.config, J.dictOf, List.map_cons, List.map_nil, J.dict.injEq, List.cons.injEq, J.num.injEq, J.str.injEq, and_true, true_and] at h
  obtain ⟨rfl, rfl, rfl, rfl, h5, h6⟩ := h
  rw [opt_inj h5, opt_inj h6]

theorem shards_inj {a b : List (List (List Sub))} (h : (a.map fun w => J.list (w.map fun s => .list (s.map Sub.config))) = b.map fun w => J.list (w.map fun s => .list (s.map Sub.config))) : a = b := by
  refine List.map_injective_iff.mpr ?_ h
  intro x y h
  refine List.map_injective_iff.mpr ?_ (J.list.inj h)
  intro x y h
  exact List.map_injective_iff.mpr (fun _ _ h => sub_inj h) (J.list.inj h)

theorem strs_inj {a b : List String} (h : a.map J.str = b.map J.str) : a = b := List.map_injective_iff.mpr (fun _ _ h => J.str.inj h) h

/-- Two dicts with an optional entry in the middle -/
theorem entry_inj {k : String} {c c' : Option J} {l l' r r' : List (String × J)}
    (h : J.dictOf (l ++ entry k c ++ r) = J.dictOf (l' ++ entry k c' ++ r')) (hl : l.length = l'.length) (hr : r.length = r'.length) : J.dictOf l = J.dictOf l' ∧ c = c' ∧ J.dictOf r = J.dictOf r' := by
  unfold J.dictOf at *
  simp only [J.dict.injEq, List.map_append] at h
  obtain ⟨h1, h2⟩ := h
  have hlen := congrArg List.length h1
  have e : (entry k c).length = (entry k c').length := by simp at hlen; omega
  have a1 := List.append_inj h1 (by simp [hl, e])
  have a2 := List.append_inj h2 (by simp [hl, e])
  have b1 := List.append_inj a1.1 (by simp [hl])
  have b2 := List.append_inj a2.1 (by simp [hl])
  refine ⟨by rw [b1.1, b2.1], ?_, by rw [a1.2, a2.2]⟩
  cases c <;> cases c' <;> simp [entry] at e b2 ⊢
  exact b2.2

theorem entry_end {k : String} {c c' : Option J} {l l' : List (String × J)} (h : J.dictOf (l ++ entry k c) = J.dictOf (l' ++ entry k c')) (hl : l.length = l'.length) :
    J.dictOf l = J.dictOf l' ∧ c = c' := by
  have := entry_inj (k := k) (c := c) (c' := c') (l := l) (l' := l') (r := []) (r' := []) (by rw [List.append_nil, List.append_nil]; exact h) hl rfl
  exact ⟨this.1, this.2.1⟩

/-- `type` of a config -/
def typeOf : J → String
  | .dict _ (.str s :: _) => s
  | _ => ""

def Told.kind : Told → String
  | .reader .. => "WebdatasetSampleLoaderDataset"
  | .map .. => "MapDataset"
  | .filter .. => "FilterDataset"
  | .iterMap .. => "IterMapDataset"
  | .batch .. => "BatchDataset"
  | .group .. => "GroupBatchDataset"
  | .pack .. => "PackingDataset"
  | .limit .. => "LimitDataset"
  | .repeat .. => "RepeatDataset"
  | .epochize .. => "EpochizeDataset"
  | .shuffle .. => "ShuffleBufferDataset"
  | .concat .. => "ConcatDataset"
  | .blend .. => "BlendDataset"
  | .mix .. => "MixBatchDataset"

theorem typeOf_describe (r : Told) : typeOf (describe r) = r.kind := by
  cases r <;> rfl

theorem kind_eq {r r' : Told} (h : describe r = describe r') : r.kind = r'.kind := by
  rw [← typeOf_describe, ← typeOf_describe, h]

mutual
theorem describe_inj : (r r' : Told) → describe r = describe r' → r = r'
  | .reader s w e l so p, r', h => by
    have k := kind_eq h
    cases r' <;> simp only [Told.kind, String.reduceEq] at k
    unfold describe at h
    simp only [J.dictOf, List.map_cons, List.map_nil, J.dict.injEq, List.cons.injEq, J.str.injEq, J.list.injEq, J.bool.injEq, J.num.injEq, and_true, true_and] at h
    obtain ⟨h1, h2, h3, rfl, h5, rfl⟩ := h
    rw [shards_inj h1, json_inj h2, strs_inj h3, opt_inj h5]
  | .map d f c s, r', h => by
    have k := kind_eq h
    cases r' <;> simp only [Told.kind, String.reduceEq] at k
    unfold describe at h
    obtain ⟨h1, rfl, h2⟩ := entry_inj h rfl rfl
    simp only [J.dictOf, List.map_cons, List.map_nil, J.dict.injEq, List.cons.injEq, J.str.injEq, J.list.injEq, J.bool.injEq, J.num.injEq, and_true, true_and] at h1 h2
    obtain ⟨h1, rfl⟩ := h1
    obtain rfl := h2
    rw [describe_inj d _ h1]
  | .filter d f c, r', h => by
    have k := kind_eq h
    cases r' <;> simp only [Told.kind, String.reduceEq] at k
    unfold describe at h
    obtain ⟨h1, rfl⟩ := entry_end h rfl
    simp only [J.dictOf, List.map_cons, List.map_nil, J.dict.injEq, List.cons.injEq, J.str.injEq, J.list.injEq, J.bool.injEq, J.num.injEq, and_true, true_and] at h1
    obtain ⟨h1, rfl⟩ := h1
    rw [describe_inj d _ h1]
  | .iterMap d f c l e, r', h => by
    have k := kind_eq h
    cases r' <;> simp only [Told.kind, String.reduceEq] at k
    unfold describe at h
    obtain ⟨h1, rfl, h2⟩ := entry_inj h rfl rfl
    simp only [J.dictOf, List.map_cons, List.map_nil, J.dict.injEq, List.cons.injEq, J.str.injEq, J.list.injEq, J.bool.injEq, J.num.injEq, and_true, true_and] at h1 h2
    obtain ⟨h1, rfl⟩ := h1
    obtain ⟨rfl, rfl⟩ := h2
    rw [describe_inj d _ h1]
  | .batch d n b c s dl e w, r', h => by
    have k := kind_eq h
    cases r' <;> simp only [Told.kind, String.reduceEq] at k
    unfold describe at h
    obtain ⟨h1, rfl, h2⟩ := entry_inj h rfl rfl
    simp only [J.dictOf, List.map_cons, List.map_nil, J.dict.injEq, List.cons.injEq, J.str.injEq, J.list.injEq, J.bool.injEq, J.num.injEq, and_true, true_and] at h1 h2
    obtain ⟨rfl, rfl⟩ := h1
    obtain ⟨rfl, rfl, rfl, h3, h4⟩ := h2
    rw [describe_inj d _ h4, json_inj h3]
  | .group d k b c s dl e w, r', h => by
    have k := kind_eq h
    cases r' <;> simp only [Told.kind, String.reduceEq] at k
    unfold describe at h
    obtain ⟨h1, rfl, h2⟩ := entry_inj h rfl rfl
    simp only [J.dictOf, List.map_cons, List.map_nil, J.dict.injEq, List.cons.injEq, J.str.injEq, J.list.injEq, J.bool.injEq, J.num.injEq, and_true, true_and] at h1 h2
    obtain ⟨rfl, rfl⟩ := h1
    obtain ⟨rfl, rfl, rfl, h3, h4⟩ := h2
    rw [describe_inj d _ h4, json_inj h3]
  | .pack d n p f s c e w, r', h => by
    have k := kind_eq h
    cases r' <;> simp only [Told.kind, String.reduceEq] at k
    unfold describe at h
    obtain ⟨h1, rfl, h2⟩ := entry_inj h rfl rfl
    simp only [J.dictOf, List.map_cons, List.map_nil, J.dict.injEq, List.cons.injEq, J.str.injEq, J.list.injEq, J.bool.injEq, J.num.injEq, and_true, true_and] at h1 h2
    obtain ⟨rfl, rfl, rfl, rfl⟩ := h1
    obtain ⟨rfl, h3, h4⟩ := h2
    rw [describe_inj d _ h4, json_inj h3]
  | .limit d n r w, r', h => by
    have k := kind_eq h
    cases r' <;> simp only [Told.kind, String.reduceEq] at k
    unfold describe at h
    simp only [J.dictOf, List.map_cons, List.map_nil, J.dict.injEq, List.cons.injEq, J.str.injEq, J.list.injEq, J.bool.injEq, J.num.injEq, and_true, true_and] at h
    obtain ⟨h1, rfl, rfl, h4⟩ := h
    rw [describe_inj d _ h1, json_inj h4]
  | .repeat d n w, r', h => by
    have k := kind_eq h
    cases r' <;> simp only [Told.kind, String.reduceEq] at k
    unfold describe at h
    simp only [J.dictOf, List.map_cons, List.map_nil, J.dict.injEq, List.cons.injEq, J.str.injEq, J.list.injEq, J.bool.injEq, J.num.injEq, and_true, true_and] at h
    obtain ⟨h1, h2, h4⟩ := h
    rw [describe_inj d _ h1, opt_inj h2, json_inj h4]
  | .epochize d n w, r', h => by
    have k := kind_eq h
    cases r' <;> simp only [Told.kind, String.reduceEq] at k
    unfold describe at h
    simp only [J.dictOf, List.map_cons, List.map_nil, J.dict.injEq, List.cons.injEq, J.str.injEq, J.list.injEq, J.bool.injEq, J.num.injEq, and_true, true_and] at h
    obtain ⟨h1, rfl, h4⟩ := h
    rw [describe_inj d _ h1, json_inj h4]
  | .shuffle d n w, r', h => by
    have k := kind_eq h
    cases r' <;> simp only [Told.kind, String.reduceEq] at k
    unfold describe at h
    simp only [J.dictOf, List.map_cons, List.map_nil, J.dict.injEq, List.cons.injEq, J.str.injEq, J.list.injEq, J.bool.injEq, J.num.injEq, and_true, true_and] at h
    obtain ⟨h1, rfl, h4⟩ := h
    rw [describe_inj d _ h1, json_inj h4]
  | .concat ds, r', h => by
    have k := kind_eq h
    cases r' <;> simp only [Told.kind, String.reduceEq] at k
    unfold describe at h
    simp only [J.dictOf, List.map_cons, List.map_nil, J.dict.injEq, List.cons.injEq, J.str.injEq, J.list.injEq, J.bool.injEq, J.num.injEq, and_true, true_and] at h
    rw [describeAll_inj ds _ h]
  | .blend ds w, r', h => by
    have k := kind_eq h
    cases r' <;> simp only [Told.kind, String.reduceEq] at k
    unfold describe at h
    simp only [J.dictOf, List.map_cons, List.map_nil, J.dict.injEq, List.cons.injEq, J.str.injEq, J.list.injEq, J.bool.injEq, J.num.injEq, and_true, true_and] at h
    obtain ⟨h1, h4⟩ := h
    rw [describeParts_inj ds _ h1, json_inj h4]
  | .mix d, r', h => by
    have k := kind_eq h
    cases r' <;> simp only [Told.kind, String.reduceEq] at k
    unfold describe at h
    simp only [J.dictOf, List.map_cons, List.map_nil, J.dict.injEq, List.cons.injEq, J.str.injEq, J.list.injEq, J.bool.injEq, J.num.injEq, and_true, true_and] at h
    rw [describe_inj d _ h]
theorem describeAll_inj : (l l' : List Told) → describeAll l = describeAll l' → l = l'
  | [], l', h => by
    cases l' with
    | nil => rfl
    | cons => simp [describeAll] at h
  | d :: ds, l', h => by
    cases l' with
    | nil => simp [describeAll] at h
    | cons d' ds' =>
      simp only [describeAll, List.cons.injEq] at h
      rw [describe_inj d _ h.1, describeAll_inj ds _ h.2]
theorem describeParts_inj : (l l' : List (Told × Int)) → describeParts l = describeParts l' → l = l'
  | [], l', h => by
    cases l' with
    | nil => rfl
    | cons => simp [describeParts] at h
  | (d, w) :: ds, l', h => by
    cases l' with
    | nil => simp [describeParts] at h
    | cons d' ds' =>
      simp only [describeParts, List.cons.injEq, J.list.injEq, J.num.injEq, and_true] at h
      obtain ⟨⟨h1, h2⟩, h3⟩ := h
      rw [describeParts_inj ds _ h3, describe_inj d _ h1, h2]
end

/-! ## C115 -/

/-- **C115** in full: two datasets have equal configs exactly if they have the same settings. -/
def C115_statement : Prop := ∀ d d' : Ds, config d = config d' ↔ d.bare = d'.bare

/-- **C115**: two datasets, of any kind and depth, have equal configs exactly if they have the same structure and agree in all settings listed by `Told`.
Missing: the settings that are not listed (see `Spec.lean`; false of the code, `C115_violated_...`). -/
theorem C115_config_partial (d d' : Ds) : config d = config d' ↔ d.told = d'.told := by
  rw [config_told, config_told]
  exact ⟨describe_inj _ _, fun h => by rw [h]⟩

mutual
theorem told_bare : (d : Ds) → d.bare.told = d.told
  | .reader .. => rfl
  | .map d .. => by simp only [Ds.bare, Ds.told, told_bare d]
  | .filter d .. => by simp only [Ds.bare, Ds.told, told_bare d]
  | .iterMap d .. => by simp only [Ds.bare, Ds.told, told_bare d]
  | .batch d .. => by simp only [Ds.bare, Ds.told, told_bare d]
  | .group d .. => by simp only [Ds.bare, Ds.told, told_bare d]
  | .pack d .. => by simp only [Ds.bare, Ds.told, told_bare d]
  | .limit d .. => by simp only [Ds.bare, Ds.told, told_bare d]
  | .repeat d .. => by simp only [Ds.bare, Ds.told, told_bare d]
  | .epochize d .. => by simp only [Ds.bare, Ds.told, told_bare d]
  | .shuffle d .. => by simp only [Ds.bare, Ds.told, told_bare d]
  | .concat ds _ => by simp only [Ds.bare, Ds.told, told_bareAll ds]
  | .blend ds _ => by simp only [Ds.bare, Ds.told, told_bareParts ds]
  | .mix d _ => by simp only [Ds.bare, Ds.told, told_bare d]
  | .log d .. => by simp only [Ds.bare, Ds.told, told_bare d]
  | .gc d .. => by simp only [Ds.bare, Ds.told, told_bare d]
theorem told_bareAll : (ds : List Ds) → toldAll (bareAll ds) = toldAll ds
  | [] => rfl
  | d :: ds => by simp only [bareAll, toldAll, told_bare d, told_bareAll ds]
theorem told_bareParts : (ds : List (Ds × Int)) → toldParts (bareParts ds) = toldParts ds
  | [] => rfl
  | (d, w) :: ds => by simp only [bareParts, toldParts, told_bare d, told_bareParts ds]
end

/-- **C115, one direction**: the same settings give the same config; logging and garbage collection do not show. (Within one process, see `C115_violated_exclude`.) -/
theorem C115_same_settings (d d' : Ds) (h : d.bare = d'.bare) : config d = config d' := by
  rw [C115_config_partial, ← told_bare d, ← told_bare d', h]

/-- **C115 for loaders**: the config of a loader tells its class, the number of workers, how they are kept and prefetch, and the config of the dataset. -/
theorem C115_loader (c c' : String) (n n' : Nat) (p p' q q' : Bool) (f f' : Int) (d d' : Ds) :
    loaderConfig c n p q f d = loaderConfig c' n' p' q' f' d' ↔ c = c' ∧ n = n' ∧ p = p' ∧ q = q' ∧ (n ≠ 0 → f = f') ∧ config d = config d' := by
  unfold loaderConfig
  simp only [J.dictOf, List.map_cons, List.map_nil, J.dict.injEq, List.cons.injEq, J.str.injEq, J.bool.injEq, J.num.injEq, and_true, true_and]
  constructor
  · rintro ⟨rfl, h, rfl, rfl, h5, h6⟩
    have h : n = n' := by omega
    subst h
    refine ⟨rfl, rfl, rfl, rfl, fun hn => ?_, h6⟩
    rw [if_neg hn, if_neg hn] at h5
    exact J.num.inj h5
  · rintro ⟨rfl, rfl, rfl, rfl, h5, h6⟩
    refine ⟨rfl, rfl, rfl, rfl, ?_, h6⟩
    by_cases hn : n = 0
    · rw [if_pos hn, if_pos hn]
    · rw [h5 hn]

theorem optStr_inj {a b : Option String} (h : J.optStr a = J.optStr b) : a = b := by
  cases a <;> cases b <;> simp [J.optStr] at h ⊢
  exact h

/-- **C115 for factories**: what the config of a dataset says about the factory.
Missing: how samples are made of the parts (`field_map`, `sample_loader`, `part_filter`, `auto_decode`), see `C115_violated_loader`. -/
theorem C115_factory_partial (f f' : Factory) : f.config = f'.config ↔
    f.cls = f'.cls ∧ f.training = f'.training ∧ f.path = f'.path ∧ f.shuffleOver = f'.shuffleOver ∧ f.parallel = f'.parallel ∧ f.maxSamples = f'.maxSamples ∧
    f.subflavor = f'.subflavor ∧ f.subflavors = f'.subflavors ∧ f.imageDecode = f'.imageDecode ∧ f.ignoreErrors = f'.ignoreErrors := by
  unfold Factory.config
  have e : f.sampleLoader.text = f'.sampleLoader.text := rfl
  simp only [J.dictOf, List.map_cons, List.map_nil, J.dict.injEq, List.cons.injEq, J.str.injEq, J.bool.injEq, J.num.injEq, and_true, true_and, e]
  constructor
  · rintro ⟨h1, h2, h3, h4, h5, h6, h7, h8, h9, h10⟩
    exact ⟨h1, h2, h3, h4, opt_inj h5, opt_inj h6, optStr_inj h7, h8, h9, h10⟩
  · rintro ⟨h1, h2, h3, h4, h5, h6, h7, h8, h9, h10⟩
    exact ⟨h1, h2, h3, h4, by rw [h5], by rw [h6], by rw [h7], h8, h9, h10⟩

/-! ## Logging -/

theorem dumpsAll_all (l : List J) : dumpsAll l = l.all J.dumps := by
  induction l with
  | nil => rfl
  | cons j l ih => rw [dumpsAll, ih, List.all_cons]

theorem dumps_dictOf (l : List (String × J)) : (J.dictOf l).dumps = l.all fun p => p.2.dumps := by
  unfold J.dictOf
  rw [J.dumps, dumpsAll_all, List.all_map]
  rfl

theorem dumps_list (l : List J) : (J.list l).dumps = l.all J.dumps := by rw [J.dumps, dumpsAll_all]

theorem dumps_opt (n : Option Int) : (J.opt n).dumps = true := by cases n <;> rfl

theorem dumps_wc (w : WC) : w.config.dumps = true := by
  unfold WC.config
  rw [dumps_dictOf]
  simp [J.dumps, dumps_opt]

theorem dumps_sub (s : Sub) : s.config.dumps = true := by
  unfold Sub.config
  rw [dumps_dictOf]
  simp [J.dumps, dumps_opt]

theorem dumps_entry (k : String) (c : Option J) : ((entry k c).all fun p => p.2.dumps) = c.toList.all J.dumps := by
  cases c <;> simp [entry]

mutual
theorem dumps_config : (d : Ds) → (config d).dumps = d.added.all J.dumps
  | .reader s .. => by
    simp only [config, Ds.added, told_cfg, dumps_dictOf, List.all_cons, List.all_nil, J.dumps, dumpsAll_all, dumps_wc, dumps_opt, List.all_map, Function.comp_def, dumps_sub, Bool.and_true, Bool.true_and]
    simp
  | .map d .. => by
    simp only [config, Ds.added, told_cfg, dumps_dictOf, List.all_append, List.all_cons, List.all_nil, J.dumps, dumps_entry, dumps_config d, Bool.and_true, Bool.true_and, Bool.and_comm]
  | .filter d .. => by
    simp only [config, Ds.added, told_cfg, dumps_dictOf, List.all_append, List.all_cons, List.all_nil, J.dumps, dumps_entry, dumps_config d, Bool.and_true, Bool.true_and, Bool.and_comm]
  | .iterMap d .. => by
    simp only [config, Ds.added, told_cfg, dumps_dictOf, List.all_append, List.all_cons, List.all_nil, J.dumps, dumps_entry, dumps_config d, Bool.and_true, Bool.true_and, Bool.and_comm]
  | .batch d .. => by
    simp only [config, Ds.added, told_cfg, dumps_dictOf, List.all_append, List.all_cons, List.all_nil, J.dumps, dumps_entry, dumps_wc, dumps_config d, Bool.and_true, Bool.true_and, Bool.and_comm]
  | .group d .. => by
    simp only [config, Ds.added, told_cfg, dumps_dictOf, List.all_append, List.all_cons, List.all_nil, J.dumps, dumps_entry, dumps_wc, dumps_config d, Bool.and_true, Bool.true_and, Bool.and_comm]
  | .pack d .. => by
    simp only [config, Ds.added, told_cfg, dumps_dictOf, List.all_append, List.all_cons, List.all_nil, J.dumps, dumps_entry, dumps_wc, dumps_config d, Bool.and_true, Bool.true_and, Bool.and_comm]
  | .limit d .. => by
    simp only [config, Ds.added, told_cfg, dumps_dictOf, List.all_cons, List.all_nil, J.dumps, dumps_wc, dumps_config d, Bool.and_true, Bool.true_and]
  | .repeat d .. => by
    simp only [config, Ds.added, told_cfg, dumps_dictOf, List.all_cons, List.all_nil, J.dumps, dumps_wc, dumps_opt, dumps_config d, Bool.and_true, Bool.true_and]
  | .epochize d .. => by
    simp only [config, Ds.added, told_cfg, dumps_dictOf, List.all_cons, List.all_nil, J.dumps, dumps_wc, dumps_config d, Bool.and_true, Bool.true_and]
  | .shuffle d .. => by
    simp only [config, Ds.added, told_cfg, dumps_dictOf, List.all_cons, List.all_nil, J.dumps, dumps_wc, dumps_config d, Bool.and_true, Bool.true_and]
  | .concat ds _ => by
    simp only [config, Ds.added, told_cfg, dumps_dictOf, List.all_cons, List.all_nil, J.dumps, dumpsAll_all, dumps_configs ds, Bool.and_true, Bool.true_and]
  | .blend ds _ => by
    simp only [config, Ds.added, told_cfg, dumps_dictOf, List.all_cons, List.all_nil, J.dumps, dumpsAll_all, dumps_wc, dumps_weighted ds, Bool.and_true, Bool.true_and]
  | .mix d _ => by
    simp only [config, Ds.added, told_cfg, dumps_dictOf, List.all_cons, List.all_nil, J.dumps, dumps_config d, Bool.and_true, Bool.true_and]
  | .log d .. => by simp only [config, Ds.added, told_cfg, dumps_config d]
  | .gc d .. => by simp only [config, Ds.added, told_cfg, dumps_config d]
theorem dumps_configs : (ds : List Ds) → (configs ds).all J.dumps = (addedAll ds).all J.dumps
  | [] => rfl
  | d :: ds => by simp only [configs, addedAll, List.all_append, List.all_cons, dumps_config d, dumps_configs ds]
theorem dumps_weighted : (ds : List (Ds × Int)) → (weighted ds).all J.dumps = (addedParts ds).all J.dumps
  | [] => rfl
  | (d, w) :: ds => by
    simp only [weighted, addedParts, List.all_append, List.all_cons, List.all_nil, dumpsAll_all, J.dumps, dumps_config d, dumps_weighted ds, Bool.and_true]
end

/-- **C115, logging**: a loader with logging can be made exactly if the configs that user code adds consist of values with a form in JSON. In particular always without such configs. -/
theorem C115_logged (d : Ds) : loaderMade true d = true ↔ ∀ j ∈ d.added, j.dumps = true := by
  unfold loaderMade
  rw [dumps_config]
  simp

/-! ## Where it fails -/

/-- **C115 is false of the code** for the way samples are made of the parts: datasets with any two field maps or sample loaders, any filters of the parts, with or without decoding, have equal configs;
but the samples are others. -/
theorem C115_violated_loader :
    (∀ (f : Factory) (l l' : Loader) (pf pf' : Fn) (a a' : Bool) (shards : List (List (List Sub))) (ex : List String) (g h : Fn),
      config (Factory.build { f with loader := l, partFilter := pf, autoDecode := a } shards ex g h) = config (Factory.build { f with loader := l', partFilter := pf', autoDecode := a' } shards ex g h)) ∧
    ∃ (cls : List Config.FieldDecl) (sample : List (List Char × Config.Val Nat)) (m m' : List (List Char × List Char)),
      ((Config.loadSample (fun _ => none) cls sample m (.other 0) (.other 0)).toOption.map (·.map fun p => (p.1, Config.leaf p.2))) ≠
      ((Config.loadSample (fun _ => none) cls sample m' (.other 0) (.other 0)).toOption.map (·.map fun p => (p.1, Config.leaf p.2))) := by
  refine ⟨fun f l l' pf pf' a a' shards ex g h => rfl, ?_⟩
  refine ⟨[⟨Config.keyName, false, false, by simp⟩, ⟨Config.restoreKeyName, false, false, by simp⟩, ⟨Config.subflavorName, true, false, by simp⟩,
      ⟨Config.subflavorsName, true, false, by simp⟩, ⟨"image".toList, false, false, by simp⟩],
    [(Config.keyName, .other 7), ("left".toList, .other 8), ("right".toList, .other 9), (Config.restoreKeyName, .other 10)],
    [("image".toList, "left".toList)], [("image".toList, "right".toList)], by decide +kernel⟩

/-- **C115 is false of the code** for the batch size of grouped batches: it is not part of the config, but the batches are others. -/
theorem C115_violated_group :
    (∀ (d : Ds) (n n' : Option Nat) (key batcher : Fn) (c : Cfg) (s dl : Bool) (h : Fn) (wc : WC), config (.group d n key batcher c s dl h wc) = config (.group d n' key batcher c s dl h wc)) ∧
    ¬ ∀ evs, (Stream.groupD (Stream.listD [1, 3, 5]) (some 2) Stream.parity Stream.sumBatch false).Trace (Stream.groupD (Stream.listD [1, 3, 5]) (some 2) Stream.parity Stream.sumBatch false).init evs ↔
      (Stream.groupD (Stream.listD [1, 3, 5]) (some 3) Stream.parity Stream.sumBatch false).Trace (Stream.groupD (Stream.listD [1, 3, 5]) (some 3) Stream.parity Stream.sumBatch false).init evs := by
  refine ⟨fun d n n' key batcher c s dl h wc => rfl, ?_⟩
  intro h
  have h1 := (h _).1 ((Stream.Dataset.eval_trace _ 40 _).take 1)
  have h2 := (Stream.groupD (Stream.listD [1, 3, 5]) (some 3) Stream.parity Stream.sumBatch false).eval_trace 40 (Stream.groupD (Stream.listD [1, 3, 5]) (some 3) Stream.parity Stream.sumBatch false).init
  have h3 := h1.det (h2.take 1) (by decide +kernel)
  revert h3
  decide +kernel

/-- **C115 is false of the code** for seeds: `seed_offset` is not part of the config, but it changes the seeds of all workers (C112). -/
theorem C115_violated_seed :
    (∀ (wc : WC) (o : Int), WC.config { wc with seedOffset := o } = wc.config) ∧
    ∃ hash : List Char → Nat, Worker.Seed.workerSeed hash ⟨0, 1, 2, 0⟩ 1 ≠ Worker.Seed.workerSeed hash ⟨0, 1, 2, 5⟩ 1 := by
  refine ⟨fun wc o => rfl, ?_⟩
  apply Classical.byContradiction
  intro h
  have h : ∀ hash : List Char → Nat, Worker.Seed.workerSeed hash ⟨0, 1, 2, 0⟩ 1 = Worker.Seed.workerSeed hash ⟨0, 1, 2, 5⟩ 1 := by
    intro hash
    apply Classical.byContradiction
    intro hn
    exact h ⟨hash, hn⟩
  have := (Worker.Seed.C112_texts ⟨0, 1, 2, 0⟩ ⟨0, 1, 2, 5⟩ 1 1 rfl (by decide) (by decide) h).2.2
  cases this

/-- **C115 is false of the code** for functions: different functions with the same module and name (closures, lambdas, methods of different objects, all `functools.partial`) are not told apart, and neither are
`b.c` in module `a` and `c` in module `a.b`. -/
theorem C115_violated_functions (d : Ds) (m q : String) (i j : Nat) (c : Cfg) (s : Bool) (h : Fn) (wc : WC) :
    config (.map d ⟨m, q, i⟩ c s h wc) = config (.map d ⟨m, q, j⟩ c s h wc) ∧ config (.map d ⟨"a", "b.c", i⟩ c s h wc) = config (.map d ⟨"a.b", "c", j⟩ c s h wc) := by
  refine ⟨rfl, ?_⟩
  have e : (Fn.text ⟨"a", "b.c", i⟩) = Fn.text ⟨"a.b", "c", j⟩ := by
    show "a" ++ "." ++ "b.c" = "a.b" ++ "." ++ "c"
    decide
  simp only [config, e]

/-- **C115 is false of the code** for excluded samples: they are listed in the order of a set of strings, which is another one in another process: the same settings, other configs. -/
theorem C115_violated_exclude (shards : List (List (List Sub))) (wc : WC) (loop : Bool) (so : Option Int) (p : Int) (pf h : Fn) (a b : String) (hab : a ≠ b) :
    (∀ x, x ∈ [a, b] ↔ x ∈ [b, a]) ∧ config (.reader shards wc [a, b] loop so p pf h) ≠ config (.reader shards wc [b, a] loop so p pf h) := by
  refine ⟨fun x => by simp [or_comm], fun e => ?_⟩
  rw [C115_config_partial] at e
  simp only [Ds.told, Told.reader.injEq] at e
  exact hab (List.cons.inj e.2.2.1).1

/-- **C115 is false of the code** for cookers with a condition: the function itself is put into the config, so with logging no loader can be made. -/
theorem C115_violated_condition (d : Ds) (c : Cooker) (f : Fn) (hc : c.condition = some f) (cs cs' : List Cooker) (encoder handler : Fn) (wc : WC) :
    loaderMade true (cookStage d (cs ++ c :: cs') encoder handler wc) = false := by
  rw [← Bool.not_eq_true]
  rw [C115_logged]
  intro h
  have := h (cookerConfig (cs ++ c :: cs')) (by
    unfold cookStage Ds.added
    rw [told_cfg]
    exact List.mem_append_left _ (by simp [Cfg.shown, cookerConfig, J.dictOf, J.truthy]))
  unfold cookerConfig at this
  rw [dumps_dictOf] at this
  simp only [List.all_cons, List.all_nil, dumpsAll_all, List.map_append, List.map_cons, List.all_append, dumps_dictOf, hc, J.dumps, Bool.and_false, Bool.and_true, Bool.false_and] at this
  cases this

theorem C115_violated : ¬ C115_statement := by
  intro h
  have := (h (.group (.concat [] ⟨0, 1, 0, none, 0⟩) (some 2) ⟨"m", "key", 0⟩ ⟨"m", "batch", 0⟩ (.value .null) false false ⟨"m", "log", 0⟩ ⟨0, 1, 0, none, 0⟩)
    (.group (.concat [] ⟨0, 1, 0, none, 0⟩) (some 3) ⟨"m", "key", 0⟩ ⟨"m", "batch", 0⟩ (.value .null) false false ⟨"m", "log", 0⟩ ⟨0, 1, 0, none, 0⟩)).1 rfl
  simp only [Ds.bare, Ds.group.injEq, Option.some.injEq] at this
  omega

/-! ## Cases -/

def exWc : WC := ⟨0, 2, 4, some 2, 0⟩
def exFn (q : String) : Fn := ⟨"my.task", q, 0⟩
/-- A training pipeline over two datasets -/
def exDs (size : Int) : Ds :=
  .log (.epochize (.batch (.map (.shuffle (.blend
      [(.reader [[[⟨"a.tar", "/d/a.tar", 0, 10, none, none⟩]]] exWc ["a.tar/3"] true (some 1) 16 (exFn "pf") (exFn "err"), 1),
       (.reader [[[⟨"b.tar", "/d/b.tar", 0, 20, some 0, some 512⟩]]] exWc [] true (some 1) 16 (exFn "pf") (exFn "err"), 3)] exWc) 100 exWc)
    (exFn "Encoder.encode_sample") (.value .null) true (exFn "err") exWc) size (exFn "Encoder.batch") (.value .null) true false (exFn "err") exWc) 1000 exWc) "train" exWc

example : config (.gc (exDs 8) 1 false exWc) = config (exDs 8) := C115_same_settings _ _ rfl
example : config (exDs 8) ≠ config (exDs 9) := by
  intro h
  rw [C115_config_partial] at h
  simp [exDs, Ds.told] at h
example : loaderMade true (exDs 8) = true := (C115_logged _).2 (by simp [exDs, Ds.added, addedParts, Cfg.told])

end Verif.Describe
