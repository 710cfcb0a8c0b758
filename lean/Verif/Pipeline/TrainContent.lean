import Verif.Pipeline.Stages

/-! # What training delivers -/

namespace Verif.Pipeline

open Verif.Stream Verif.Wds

variable {B C K ρ σ κ : Type}

/-! ### Specification -/

/-- The samples (tar file, number in it) of the dataset that are assigned to worker `i`, if the assignment is rotated by `rot` workers. -/
def Disk.share (d : Disk B C) (w : Sharder.WorkerConfig) (rot i : Nat) : List (String × Nat) :=
  (Sharder.reads (Sharder.shardWorkers d.shards w d.maxSamples rot) i).flatten

/-- The rotation for the `k`-th of the datasets: the number of samples of the datasets before. -/
def rotOf (ds : List (Disk B C)) (w : Sharder.WorkerConfig) (k : Nat) : Nat := ((ds.take k).map Disk.len).sum % w.globalWorkers

/-- `ps` goes through all of `share` (`n` times, in any order), again and again; the last round may be incomplete. -/
def Rounds (n : Nat) (share ps : List (String × Nat)) : Prop :=
  ∃ (rounds : List (List (String × Nat))) (cur rest : List (String × Nat)), ps = rounds.flatten ++ cur ∧
    (∀ e ∈ rounds, e.Perm (List.replicate n share).flatten) ∧ (cur ++ rest).Perm (List.replicate n share).flatten

/-- The order in which `shuffle_over_epochs` allows to read samples. -/
def Disk.Order (d : Disk B C) (share ps : List (String × Nat)) : Prop :=
  match d.shuffleOverEpochs with
  | .over n => Rounds n share ps
  | .replace => ∀ p ∈ ps, p ∈ share
  | .none => Rounds 1 share ps

/-- The samples `src` (number of the dataset, tar file, number in it) are the ones that worker `i` took, in this order, if from each dataset it takes its share in an allowed order;
samples that cannot be loaded are left out. -/
structure Taken (ds : List (Disk B C)) (w : Sharder.WorkerConfig) (i : Nat) (load : Disk B C → Raw B → Option C) (src : List (Nat × String × Nat)) : Prop where
  known : ∀ q ∈ src, q.1 < ds.length
  order : ∀ k d, ds[k]? = some d → ∃ ps, d.Order (d.share w (rotOf ds w k) i) ps ∧
    (src.filter (·.1 = k)).map (·.2) = ps.filter fun p => (load d (d.raw p)).isSome

/-- The loaded sample. -/
def fetch (ds : List (Disk B C)) (load : Disk B C → Raw B → Option C) (q : Nat × String × Nat) : Option C :=
  ds[q.1]?.bind fun d => load d (d.raw q.2)

/-- The number of samples that a shuffle buffer holds back at most. -/
def holdsBack : Option Nat → Nat
  | none => 0
  | some n => n - 1

/-! ### Proofs -/

/-- The position of a raw sample, from its key. -/
def posOf (a : Smp C) : String × Nat := (leaves a.key).headD ("", 0)

theorem raw_pos (d : Disk B C) (name : String) (a n : Nat) : ∀ x ∈ (mkSlice d.tars name a n).samples, leaves x.key = [posOf x] ∧ x.content = d.raw (posOf x) := by
  intro x hx
  have h1 := slice_contents d name a n x hx
  cases h : leaves x.key with
  | nil => rw [h] at h1; cases h1
  | cons p l =>
    rw [h] at h1
    simp only [List.map_cons, List.cons.injEq] at h1
    have h2 : l = [] := by
      cases l with
      | nil => rfl
      | cons b l => cases h1.2
    subst h2
    unfold posOf
    rw [h]
    exact ⟨rfl, h1.1⟩

theorem leavesOf_eq {xs : List (Smp C)} (h : ∀ x ∈ xs, leaves x.key = [posOf x]) : leavesOf xs = xs.map posOf := by
  induction xs with
  | nil => rfl
  | cons x xs ih =>
    rw [List.map_cons, ← ih fun y hy => h y (by simp [hy])]
    simp [leavesOf, h x (by simp)]

theorem mapSpec_pos {C' : Type} {f : MapFn C C'} {h : C → Option C'} (hf : Computes f h) (n : Nat) (xs : List (Smp C)) :
    (mapSpec f n xs).map posOf = (xs.filter fun a => (h a.content).isSome).map posOf ∧
    ∀ y ∈ mapSpec f n xs, ∃ x ∈ xs, posOf y = posOf x ∧ h x.content = some y.content := by
  induction xs generalizing n with
  | nil => simp [mapSpec]
  | cons a xs ih =>
    have ih := ih (n + 1)
    have h1 := hf n a
    unfold mapSpec at ih ⊢
    cases e : f n a with
    | ok c =>
      rw [e] at h1
      simp only at h1
      have hp : posOf (⟨c, .str "MapDataset" :: .num n :: a.key⟩ : Smp C') = posOf a := by
        unfold posOf
        simp only [leaves_map]
      constructor
      · simp [List.zipIdx_cons, e, ih.1, h1, hp]
      · intro y hy
        simp only [List.zipIdx_cons, List.filterMap_cons, e, List.mem_cons] at hy
        rcases hy with rfl | hy
        · exact ⟨a, by simp, hp, h1⟩
        · obtain ⟨x, hx, h2⟩ := ih.2 y hy
          exact ⟨x, by simp [hx], h2⟩
    | skip | fail =>
      rw [e] at h1
      simp only at h1
      constructor
      · simp [List.zipIdx_cons, e, ih.1, h1]
      · intro y hy
        simp only [List.zipIdx_cons, List.filterMap_cons, e] at hy
        obtain ⟨x, hx, h2⟩ := ih.2 y hy
        exact ⟨x, by simp [hx], h2⟩
    | fatal =>
      rw [e] at h1
      exact h1.elim

/-- What one part delivers. -/
def PartGives (D : Dataset σ (Smp C) κ) (d : Disk B C) (share : List (String × Nat)) (ld : Raw B → Option C) : Prop :=
  ∀ ys q, D.Items D.init ys q → ∃ ps, d.Order share ps ∧ ys.map posOf = (ps.filter fun p => (ld (d.raw p)).isSome) ∧
    ∀ y ∈ ys, ld (d.raw (posOf y)) = some y.content

theorem buildPart_gives (R : WRng ρ) {d : Disk B C} (hd : d.Ok) (hc : d.Counted) {w : Sharder.WorkerConfig} (hr : w.rank < w.worldSize) (rot : Nat) {i : Nat}
    (hi : i < w.workers) {ld : Raw B → Option C} (hl : Computes d.load ld) {D : Dataset (PartS B ρ) (Smp C) (PartK ρ)} (hD : buildPart R d true w rot i = .ok D) :
    PartGives D d (d.share w rot i) ld := by
  obtain ⟨p, h1, h2, h3, h4, h5, h6⟩ := slicesFor_ok hd hr rot hi
  unfold buildPart at hD
  rw [h1] at hD
  cases hD
  intro ys q h
  have hids := ids_nodup d true h3
  have hv := loaderCfg_valid hd true (.inl rfl) h2
  obtain ⟨xs, g1, _, g2⟩ := C13_map_items (r := false) (loaderD R _ (restoreTars d.tars fun _ _ => false)) d.load true _ _ _ .init h
  have hmem : ∀ x ∈ (loaderCfg d true (p.map fun s => mkSlice d.tars s.head.name s.head.offset s.head.count)).samples,
      leaves x.key = [posOf x] ∧ x.content = d.raw (posOf x) := by
    intro x hx
    unfold Cfg.samples at hx
    obtain ⟨l, hl, hx⟩ := List.mem_flatten.1 hx
    obtain ⟨s, hs, rfl⟩ := List.mem_map.1 hl
    obtain ⟨t, ht, rfl⟩ := List.mem_map.1 hs
    exact raw_pos d _ _ _ x hx
  have hshare : (loaderCfg d true (p.map fun s => mkSlice d.tars s.head.name s.head.offset s.head.count)).samples.map posOf = d.share w rot i := by
    rw [← leavesOf_eq fun x hx => (hmem x hx).1]
    unfold Disk.share
    rw [h6, ← leaves_slices hd hc h4]
    unfold Cfg.samples loaderCfg
    rw [List.flatMap_def]
  have hown : ∀ x ∈ xs, x ∈ (loaderCfg d true (p.map fun s => mkSlice d.tars s.head.name s.head.offset s.head.count)).samples := by
    have key : ∀ {s s' : _} {l : List (Smp (Raw B))}, (loaderD R (loaderCfg d true (p.map fun s => mkSlice d.tars s.head.name s.head.offset s.head.count))
        (restoreTars d.tars fun _ _ => false)).Items s l s' → (loaderD R (loaderCfg d true (p.map fun s => mkSlice d.tars s.head.name s.head.offset s.head.count))
        (restoreTars d.tars fun _ _ => false)).Paused false s → ∀ x ∈ l, x ∈ (loaderCfg d true (p.map fun s => mkSlice d.tars s.head.name s.head.offset s.head.count)).samples := by
      intro s s' l h hp
      unfold Dataset.Items at h
      induction l generalizing s with
      | nil => simp
      | cons a l ih =>
        cases h with
        | item ho h =>
          intro x hx
          rcases List.mem_cons.1 hx with rfl | hx
          · exact C32_only_own_samples hids false _ ⟨_, _, hp, ho⟩
          · exact ih h (.item hp ho) x hx
    exact key g1 .init
  have hord : d.Order (d.share w rot i) (xs.map posOf) := by
    have hcopies : ∀ n, (loaderCfg d true (p.map fun s => mkSlice d.tars s.head.name s.head.offset s.head.count)).copies = n →
        (loaderCfg d true (p.map fun s => mkSlice d.tars s.head.name s.head.offset s.head.count)).full.map posOf = (List.replicate n (d.share w rot i)).flatten := by
      intro n hn
      unfold Cfg.full
      rw [hn, List.map_flatten, List.map_replicate, hshare]
    have hrounds : ∀ n, (loaderCfg d true (p.map fun s => mkSlice d.tars s.head.name s.head.offset s.head.count)).copies = n →
        (loaderCfg d true (p.map fun s => mkSlice d.tars s.head.name s.head.offset s.head.count)).mode ≠ .replace → Rounds n (d.share w rot i) (xs.map posOf) := by
      intro n hn hm
      obtain ⟨es, cur, rest, k1, k2, k3⟩ := C32_epochs hv hm (.inl rfl) g1
      refine ⟨es.map (List.map posOf), cur.map posOf, rest.map posOf, by rw [k1, List.map_append, List.map_flatten], ?_, ?_⟩
      · intro e he
        obtain ⟨e', he', rfl⟩ := List.mem_map.1 he
        rw [← hcopies n hn]
        exact (k2 e' he').1.map _
      · rw [← hcopies n hn, ← List.map_append]
        exact k3.1.map _
    unfold Disk.Order
    cases hm : d.shuffleOverEpochs with
    | none => exact absurd hm hd.mode
    | over n => exact hrounds n (by simp [Cfg.copies, loaderCfg, hm]) (by simp [loaderCfg, hm])
    | replace =>
      intro q hq
      obtain ⟨x, hx, rfl⟩ := List.mem_map.1 hq
      rw [← hshare]
      exact List.mem_map.2 ⟨x, hown x hx, rfl⟩
  have g2 : ys = mapSpec d.load 0 xs := g2
  obtain ⟨k1, k2⟩ := mapSpec_pos hl 0 xs
  refine ⟨_, hord, ?_, ?_⟩
  · rw [g2, k1, List.filter_map]
    congr 1
    refine List.filter_congr fun x hx => ?_
    simp only [Function.comp_apply]
    rw [← (hmem x (hown x hx)).2]
  · intro y hy
    rw [g2] at hy
    obtain ⟨x, hx, e1, e2⟩ := k2 y hy
    rw [e1, ← (hmem x (hown x hx)).2, e2]

/-- A source with tags. -/
def Sourced (D : Dataset σ (Smp C) κ) (ds : List (Disk B C)) (w : Sharder.WorkerConfig) (i : Nat) (load : Disk B C → Raw B → Option C)
    (tag : Smp C → Nat × String × Nat) : Prop :=
  ∀ ys q, D.Items D.init ys q → Taken ds w i load (ys.map tag) ∧ ∀ y ∈ ys, fetch ds load (tag y) = some y.content

theorem buildParts_gives (R : Rngs ρ) {w : Sharder.WorkerConfig} (hr : w.rank < w.worldSize) {i : Nat} (hi : i < w.workers)
    (l : List (Disk B C × Nat)) (h : ∀ q ∈ l, q.1.Ok ∧ q.1.Counted) (ld : Disk B C → Raw B → Option C) (hl : ∀ q ∈ l, Computes q.1.load (ld q.1)) (j : Nat)
    {Ds : List (Dataset (PartS B ρ) (Smp C) (PartK ρ))} (hD : buildParts R true w i j l = .ok Ds) :
    Ds.length = l.length ∧ ∀ (k : Nat) D (q : Disk B C × Nat), Ds[k]? = some D → l[k]? = some q → PartGives D q.1 (q.1.share w q.2 i) (ld q.1) := by
  induction l generalizing j Ds with
  | nil => cases hD; simp
  | cons q l ih =>
    obtain ⟨d, rot⟩ := q
    unfold buildParts at hD
    split at hD
    · rename_i D Ds' e1 e2
      cases hD
      obtain ⟨k1, k2⟩ := ih (fun q hq => h q (by simp [hq])) (fun q hq => hl q (by simp [hq])) _ e2
      refine ⟨by simp [k1], ?_⟩
      intro k E q hE hq
      cases k with
      | zero =>
        cases hE; cases hq
        exact buildPart_gives _ (h (d, rot) (by simp)).1 (h (d, rot) (by simp)).2 hr rot hi (hl (d, rot) (by simp)) e1
      | succ k => exact k2 k E q (by simpa using hE) (by simpa using hq)
    · cases hD
    · cases hD

/-- The number after the class name in a key. -/
def keyNum : List Key → Nat
  | .str _ :: .num k :: _ => k
  | _ => 0

theorem leaves_blend (n : Nat) (k : List Key) : leaves (.str "BlendDataset" :: .num n :: k) = leaves k := by
  cases k with
  | nil => simp [leaves, leaf]
  | cons a k => simp [leaves, leaf]

theorem blendDraws_lt (R : Rng ρ) (m : Nat) (hm : 0 < m) (g : ρ) (j : Nat) : ∀ k ∈ blendDraws R m g j, k < m := by
  unfold blendDraws
  induction j generalizing g with
  | zero => simp [drawSeq]
  | succ j ih =>
    intro k hk
    simp only [drawSeq, List.mem_cons] at hk
    rcases hk with rfl | hk
    · exact R.choiceIdx_lt g hm
    · exact ih _ k hk

theorem trainSource_sourced (R : Rngs ρ) {ds : List (Disk B C)} {w : Sharder.WorkerConfig} (hr : w.rank < w.worldSize) {i : Nat}
    (hi : i < w.workers) (h : ∀ d ∈ ds, d.Ok ∧ d.Counted ∧ d.Enough w) (load : Disk B C → Raw B → Option C) (hload : ∀ d ∈ ds, Computes d.load (load d))
    {A : AnyDs C} (hA : trainSource R ds w i = .ok A) : ∃ tag, Sourced A.D ds w i load tag := by
  match ds, h, hload, hA with
  | [], _, _, hA => cases hA
  | [d], h, hload, hA =>
    obtain ⟨h1, h2, h3⟩ := h d (by simp)
    obtain ⟨D, g1, g2, _⟩ := buildPart_train (R.reader 0) h1 hr 0 hi h3
    simp only [trainSource, g1] at hA
    cases hA
    refine ⟨fun y => (0, posOf y), fun ys q hy => ?_⟩
    obtain ⟨ps, k1, k2, k3⟩ := buildPart_gives _ h1 h2 hr 0 hi (hload d (by simp)) g1 ys q hy
    refine ⟨⟨?_, ?_⟩, ?_⟩
    · intro q hq
      obtain ⟨y, _, rfl⟩ := List.mem_map.1 hq
      simp
    · intro k e he
      cases k with
      | succ k => simp at he
      | zero =>
        cases he
        have h0 : rotOf [d] w 0 = 0 := by simp [rotOf]
        rw [h0]
        refine ⟨ps, k1, ?_⟩
        rw [← k2, List.filter_eq_self.2 ?_, List.map_map]
        · rfl
        · intro q hq
          obtain ⟨y, _, rfl⟩ := List.mem_map.1 hq
          simp
    · intro y hy
      exact k3 y hy
  | d :: d' :: l, h, hload, hA =>
    obtain ⟨Ds, g1, g2, g3⟩ := buildParts_train R hr hi
      ((d :: d' :: l).zip (Sharder.rotationOffsets ((d :: d' :: l).map Disk.len) w.globalWorkers))
      (fun q hq => ⟨(h q.1 (List.of_mem_zip hq).1).1, (h q.1 (List.of_mem_zip hq).1).2.2⟩) 0
    obtain ⟨_, gg⟩ := buildParts_gives R hr hi _ (fun q hq => ⟨(h q.1 (List.of_mem_zip hq).1).1, (h q.1 (List.of_mem_zip hq).1).2.1⟩) load
      (fun q hq => hload q.1 (List.of_mem_zip hq).1) 0 g1
    cases Ds with
    | nil => simp [Sharder.rotationOffsets] at g2
    | cons D Ds =>
      simp only [trainSource, g1] at hA
      cases hA
      generalize hds : d :: d' :: l = ds at *
      have hlen : Ds.length + 1 = ds.length := by
        simpa [Sharder.rotationOffsets] using g2
      have hact : blendActive (nth D Ds) (Ds.length + 1) = List.range (Ds.length + 1) := by
        simp only [blendActive]
        exact List.filter_eq_self.2 fun k hk => (g3 _ (nth_mem D Ds k)).2
      refine ⟨fun y => (keyNum y.key, posOf y), fun ys q hy => ?_⟩
      obtain ⟨zs, e1, e2, e3, _⟩ := C15_blend_faithful (nth D Ds) (Ds.length + 1) R.blend _ _ ys q .init hy
      have hkn : ∀ z ∈ zs, z.1 < Ds.length + 1 := by
        intro z hz
        have : z.1 ∈ zs.map (·.1) := List.mem_map.2 ⟨z, hz, rfl⟩
        rw [e2] at this
        have := blendDraws_lt _ _ (by rw [hact]; simp) _ _ _ this
        rw [hact] at this
        simpa using this
      have htag : ys.map (fun y => (keyNum y.key, posOf y)) = zs.map fun z => (z.1, posOf z.2) := by
        rw [e1, List.map_map]
        refine List.map_congr_left fun z _ => ?_
        have : posOf (z.2.addKey [.str "BlendDataset", .num z.1]) = posOf z.2 := by
          unfold posOf
          have : (z.2.addKey [.str "BlendDataset", .num z.1]).key = .str "BlendDataset" :: .num z.1 :: z.2.key := rfl
          rw [this, leaves_blend]
        simp only [Function.comp_apply, this]
        rfl
      have hpart : ∀ k d, ds[k]? = some d → ∃ ps, d.Order (d.share w (rotOf ds w k) i) ps ∧
          ((zs.filter (·.1 = k)).map fun z => posOf z.2) = (ps.filter fun p => (load d (d.raw p)).isSome) ∧
          ∀ z ∈ zs, z.1 = k → load d (d.raw (posOf z.2)) = some z.2.content := by
        intro k d hk
        have hkl : k < ds.length := (List.getElem?_eq_some_iff.1 hk).1
        have hk' : k < Ds.length + 1 := by omega
        obtain ⟨es, r1, r2⟩ := e3 k k (by rw [hact]; simp [hk'])
        have hget : (D :: Ds)[k]? = some (nth D Ds k) := by
          unfold nth
          rw [List.getD_eq_getElem?_getD, List.getElem?_eq_getElem (by simpa using hk'), Option.getD_some]
        have hg := gg k (nth D Ds k) (d, rotOf ds w k) hget (by
          rw [List.getElem?_zip_eq_some]
          refine ⟨hk, ?_⟩
          simp [Sharder.rotationOffsets, rotOf, List.getElem?_map, List.getElem?_range hkl, List.map_take])
        have hN := (g3 _ (nth_mem D Ds k)).1.endless
        obtain ⟨r3, _⟩ := Dataset.Run.items_of_neverEnds hN .init r1
        rw [r2] at r3
        obtain ⟨ps, s1, s2, s3⟩ := hg _ _ r3
        refine ⟨ps, s1, ?_, ?_⟩
        · rw [← s2, List.map_map]
          rfl
        · intro z hz hzk
          exact s3 z.2 (List.mem_map.2 ⟨z, List.mem_filter.2 ⟨hz, by simpa using hzk⟩, rfl⟩)
      refine ⟨⟨?_, ?_⟩, ?_⟩
      · intro q hq
        rw [htag] at hq
        obtain ⟨z, hz, rfl⟩ := List.mem_map.1 hq
        have := hkn z hz
        simp only
        omega
      · intro k d hk
        obtain ⟨ps, s1, s2, _⟩ := hpart k d hk
        refine ⟨ps, s1, ?_⟩
        rw [htag, ← s2, List.filter_map, List.map_map]
        rfl
      · intro y hy
        have : (keyNum y.key, posOf y) ∈ ys.map (fun y => (keyNum y.key, posOf y)) := List.mem_map.2 ⟨y, hy, rfl⟩
        rw [e1] at hy
        obtain ⟨z, hz, rfl⟩ := List.mem_map.1 hy
        have hzk := hkn z hz
        have hzl : z.1 < ds.length := by omega
        obtain ⟨_, _, _, s3⟩ := hpart z.1 ds[z.1] (List.getElem?_eq_getElem hzl)
        have hp : posOf (z.2.addKey [.str "BlendDataset", .num z.1]) = posOf z.2 := by
          unfold posOf
          have : (z.2.addKey [.str "BlendDataset", .num z.1]).key = .str "BlendDataset" :: .num z.1 :: z.2.key := rfl
          rw [this, leaves_blend]
        unfold fetch
        have hkk : keyNum (z.2.addKey [.str "BlendDataset", .num z.1]).key = z.1 := rfl
        simp only [hkk, hp]
        rw [List.getElem?_eq_getElem hzl]
        exact s3 z hz rfl

/-- `ys` were delivered from the beginning, perhaps in several passes. -/
def Ran (A : AnyDs C) (ys : List (Smp C)) : Prop := ∃ evs q, A.D.Run A.D.init evs q ∧ itemsOf evs = ys

/-- With a shuffle buffer: what was delivered is a part of what was taken. -/
theorem shuffleStage_items (R : Rngs ρ) (size : Option Nat) {A : AnyDs C} (h : Src A.D) {ys : List (Smp C)} (hy : Gave (shuffleStage R size A) ys) :
    ∃ xs held, Gave A xs ∧ (ys ++ held).Perm xs ∧ held.length ≤ holdsBack size ∧ (holdsBack size = 0 → ys = xs) := by
  cases size with
  | none => exact ⟨ys, [], hy, by simp, by simp [holdsBack], fun _ => rfl⟩
  | some n =>
    by_cases hn : 1 < n
    · have e : shuffleStage R (some n) A = ⟨_, _, shuffleD A.D R.shuffle n⟩ := if_pos hn
      rw [e] at hy
      obtain ⟨q, hy⟩ := hy
      obtain ⟨xs, held, h1, h2, h3, _⟩ := C10_shuffle_items A.D R.shuffle n (by omega) _ h.restores _ _ ys .init hy
      have h1 : A.D.Items A.D.init xs q.1 := by
        rcases h1 with h1 | h1
        · exact h1
        · exfalso
          obtain ⟨t, h4, h5⟩ := Dataset.pass_iff.1 h1
          exact h.endless _ _ (h4.paused .init) h5
      refine ⟨xs, held, ⟨q.1, h1⟩, h2, by simp only [holdsBack]; omega, fun h0 => ?_⟩
      simp only [holdsBack] at h0
      omega
    · have e : shuffleStage R (some n) A = A := if_neg hn
      rw [e] at hy
      exact ⟨ys, [], hy, by simp, by simp, fun _ => rfl⟩

/-- The sample that the loop is about to pass on. -/
def held' (x : LoopX (Smp C)) : List (Smp C) :=
  match x.ctl with
  | .got a => [a]
  | _ => []

theorem log_trans_inv {rs : List Key → Option (Smp C)} {has : Bool} {x x' : LoopX (Smp C)} {es os : List (Ev (Smp C))}
    (h : (loopW (fun _ a => LoopRes.out a) rs has).Trans x es os x') : held' x ++ itemsOf es = itemsOf os ++ held' x' := by
  induction h with
  | nil => simp [itemsOf]
  | @emit x b x1 es os x2 h _ ih =>
    obtain ⟨n, c⟩ := x
    cases c <;> simp only [loopW] at h <;> cases h
    simp only [held', itemsOf] at ih ⊢
    simpa using ih
  | @halt x x1 es os x2 h _ ih =>
    obtain ⟨n, c⟩ := x
    cases c <;> simp only [loopW] at h <;> cases h
    simp only [held', itemsOf] at ih ⊢
    simpa using ih
  | @tau x x1 es os x2 h _ ih =>
    obtain ⟨n, c⟩ := x
    cases c <;> simp only [loopW] at h <;> cases h
  | @pullItem x f g a es os x2 h _ ih =>
    obtain ⟨n, c⟩ := x
    cases c <;> simp only [loopW] at h <;> cases h
    simp only [held', itemsOf] at ih ⊢
    simpa using ih
  | @pullFin x f g es os x2 h _ ih =>
    obtain ⟨n, c⟩ := x
    cases c <;> simp only [loopW] at h <;> cases h
    simp only [held', itemsOf] at ih ⊢
    simpa using ih

theorem logStage_ran {logging : Bool} {A : AnyDs C} {ys : List (Smp C)} (hy : Ran (logStage logging A) ys) : Ran A ys := by
  cases logging with
  | false => exact hy
  | true =>
    obtain ⟨evs, q, h1, h2⟩ := hy
    obtain ⟨es, h3, h4⟩ := run_inv (D := A.D) loopW_noReset h1
    have h5 := log_trans_inv h4
    have h6 : held' q.2 = [] := by
      have := (loopW_paused (r := false) (D := A.D) (h1.paused .init)).2
      unfold held'
      rw [this]
    rw [h6, List.append_nil] at h5
    exact ⟨es, _, h3, by rw [← h2]; exact h5⟩

theorem epochStage_ran {length nw i : Nat} {A : AnyDs C} {ys : List (Smp C)} (hy : Ran (epochStage length nw i A) ys) : Ran A ys := by
  by_cases hl : 0 < length
  · have e : epochStage length nw i A = ⟨_, _, epochizeD A.D length nw i⟩ := if_pos hl
    rw [e] at hy
    obtain ⟨evs, q, h1, h2⟩ := hy
    obtain ⟨es, h3, h4⟩ := C20_epochs_concat A.D length nw i _ evs q .init h1
    exact ⟨es, _, h3, by rw [← h4, h2]⟩
  · have e : epochStage length nw i A = A := if_neg hl
    rw [e] at hy
    exact hy

theorem Ran.gave {A : AnyDs C} (hN : A.D.NeverEnds) {ys : List (Smp C)} (h : Ran A ys) : Gave A ys := by
  obtain ⟨evs, q, h1, rfl⟩ := h
  exact ⟨q, (Dataset.Run.items_of_neverEnds hN .init h1).1⟩

/-- `out` was made from the datasets: there is a sequence `src` of raw samples, that takes samples from the datasets in an allowed order (only from the share of this worker, and without replacement all of
it once, or `n` times, in each round), of which `used` have left the shuffle buffer and fewer than the size of the shuffle buffer are held back. `out` is the beginning of what is made of the
used samples, and not fewer of them would have been enough. -/
def MadeFrom [DecidableEq K] (ds : List (Disk B C)) (o : TrainOpts) (w : Sharder.WorkerConfig) (i : Nat) (load : Disk B C → Raw B → Option C) (F : Fns C K) (grouped : Bool) (out : List C) : Prop :=
  ∃ src used held : List (Nat × String × Nat), Taken ds w i load src ∧
    (used ++ held).Perm src ∧ held.length ≤ holdsBack o.shuffleSize ∧ (holdsBack o.shuffleSize = 0 → used = src) ∧
    OnDemand (F.stream grouped o.batchSize o.packing) (used.filterMap (fetch ds load)) out

theorem train_made [DecidableEq K] (R : Rngs ρ) (E : Encoder C K) (ds : List (Disk B C)) (o : TrainOpts) (w : Sharder.WorkerConfig) (i : Nat)
    (hne : ds ≠ []) (hds : ∀ d ∈ ds, d.Ok ∧ d.Counted ∧ d.Enough w) (hr : w.rank < w.worldSize) (hi : i < w.workers)
    (hb : ∀ n, o.batchSize = some n → 0 < n) (hF : E.Fits o.batchSize o.packing)
    (load : Disk B C → Raw B → Option C) (hload : ∀ d ∈ ds, Computes d.load (load d)) (F : Fns C K) (hE : E.Is F o.batchSize o.packing) :
    ∃ A, trainDs R E ds o w i = .ok A ∧ ∀ ys, Ran A ys → MadeFrom ds o w i load F E.group.isSome (ys.map (·.content)) := by
  obtain ⟨A0, g1, g2⟩ := trainSource_ok R hne hr hi fun d hd => ⟨(hds d hd).1, (hds d hd).2.2⟩
  obtain ⟨tag, g3⟩ := trainSource_sourced R hr hi hds load hload g1
  have g4 := shuffleStage_ok R o.shuffleSize g2
  obtain ⟨A1, g5, g6⟩ := buildBatch_stage hE hF hb o.dropLast (shuffleStage R o.shuffleSize A0)
  refine ⟨logStage o.logging (epochStage o.epochLength w.numWorkers i A1), by simp only [trainDs, g1, g5], fun ys hran => ?_⟩
  obtain ⟨y3, d1, d2⟩ := g6.gave g4.endless ys ((epochStage_ran (logStage_ran hran)).gave (g6.endless g4.endless))
  obtain ⟨y4, held, e1, e2, e3, e4⟩ := shuffleStage_items R o.shuffleSize g2 d1
  obtain ⟨q, e1⟩ := e1
  obtain ⟨f1, f2⟩ := g3 y4 q e1
  refine ⟨y4.map tag, y3.map tag, held.map tag, f1, ?_, by simpa using e3, fun h0 => by rw [e4 h0], ?_⟩
  · rw [← List.map_append]
    exact e2.map tag
  · have hf : (y3.map tag).filterMap (fetch ds load) = y3.map (·.content) := by
      rw [List.filterMap_map, ← List.filterMap_eq_map]
      refine List.filterMap_congr fun y hy => ?_
      exact f2 y (e2.subset (by simp [hy]))
    rw [hf]
    exact d2

/-- **C69.** What a training worker delivers in all, with any number of interruptions (saving the state, and going on in a new process): there is a sequence `src` of raw samples, that takes
samples from the datasets in an allowed order (only from the share of this worker, and without replacement all of it once, or `n` times, in each round), of which `used` have left the shuffle buffer and
fewer than the size of the shuffle buffer are held back. The used ones were loaded, cooked and encoded (the skipped ones being left out), packed, if there is packing, from full buffers, put in full batches, batched and
encoded; what was delivered is the beginning of the result, and no more samples were used than necessary.
So nothing is lost and nothing is delivered twice, whatever the interruptions are. Missing for the full statement: functions whose result depends on the sample index; grouping and generator functions (without
interruptions, see `C69_uninterrupted_partial`; with them the state of the groups is lost, C29, and see C14). -/
theorem C69_train_contents_partial [DecidableEq K] (R : Rngs ρ) (E : Encoder C K) (ds : List (Disk B C)) (o : TrainOpts) (w : Sharder.WorkerConfig) (i : Nat)
    (hne : ds ≠ []) (hds : ∀ d ∈ ds, d.Ok ∧ d.Counted ∧ d.Enough w) (hr : w.rank < w.worldSize) (hi : i < w.workers)
    (hb : ∀ n, o.batchSize = some n → 0 < n) (hF : E.Fits o.batchSize o.packing) (hS : E.Simple o.packing)
    (load : Disk B C → Raw B → Option C) (hload : ∀ d ∈ ds, Computes d.load (load d)) (F : Fns C K) (hE : E.Is F o.batchSize o.packing) :
    ∃ A, trainDs R E ds o w i = .ok A ∧ ∀ evs s, A.D.History evs s → MadeFrom ds o w i load F false ((itemsOf evs).map (·.content)) := by
  obtain ⟨A, h1, h2, _⟩ := C65_train_resumes_partial R E ds o w i hne (fun d hd => ⟨(hds d hd).1, (hds d hd).2.2⟩) hr hi hS hF
  refine ⟨A, h1, fun evs s hh => ?_⟩
  obtain ⟨evs', t, k1, k2, _⟩ := hh.run_upToEnd h2
  rw [← k2]
  obtain ⟨A', h3, h4⟩ := train_made R E ds o w i hne hds hr hi hb hF load hload F hE
  rw [h1] at h3
  cases h3
  have := h4 _ ⟨evs', t, k1, rfl⟩
  rw [hS.group] at this
  exact this

/-- **C69**, for any task encoder (with generator functions, grouping, any packing), without interruptions: the same. With groups the batches are the full batches of the groups, in the order in which they are
completed. -/
theorem C69_uninterrupted_partial [DecidableEq K] (R : Rngs ρ) (E : Encoder C K) (ds : List (Disk B C)) (o : TrainOpts) (w : Sharder.WorkerConfig) (i : Nat)
    (hne : ds ≠ []) (hds : ∀ d ∈ ds, d.Ok ∧ d.Counted ∧ d.Enough w) (hr : w.rank < w.worldSize) (hi : i < w.workers)
    (hb : ∀ n, o.batchSize = some n → 0 < n) (hF : E.Fits o.batchSize o.packing)
    (load : Disk B C → Raw B → Option C) (hload : ∀ d ∈ ds, Computes d.load (load d)) (F : Fns C K) (hE : E.Is F o.batchSize o.packing) :
    ∃ A, trainDs R E ds o w i = .ok A ∧ ∀ evs s, A.D.Run A.D.init evs s → MadeFrom ds o w i load F E.group.isSome ((itemsOf evs).map (·.content)) := by
  obtain ⟨A, h1, h2⟩ := train_made R E ds o w i hne hds hr hi hb hF load hload F hE
  exact ⟨A, h1, fun evs s hh => h2 _ ⟨evs, s, hh, rfl⟩⟩

/-- **C69**, the shares: without `max_samples_per_sequence`, the shares of all the workers of all ranks together are the dataset: each sample is in exactly one of them. -/
theorem C69_shares (d : Disk B C) (hd : d.Ok) (hm : d.maxSamples = none) (world workers : Nat) (hw : 0 < world) (rot : Nat) :
    ((List.range world).flatMap fun r => (List.range (max 1 workers)).flatMap fun i => d.share ⟨r, world, workers⟩ rot i) = d.samples := by
  have h := (Sharder.C01_workers_partition_dataset d.shards hd.whole hd.nonempty (lt_of_le_of_lt hd.size (by norm_num)) world workers hw rot).2
  unfold Disk.samples
  rw [← h]
  unfold Disk.share Sharder.readByAll
  rw [hm]
  simp only [List.flatMap_def, List.flatten_flatten, List.map_map]
  congr 1
  refine List.map_congr_left fun r _ => ?_
  simp only [Function.comp_apply, List.flatten_flatten, List.map_map]
  rfl

theorem samples_nodup {d : Disk B C} (hd : d.Ok) : d.samples.Nodup := by
  have h := heads_nodup d.shards hd.names
  have key : ∀ l : List (List (String × Nat)), (∀ x ∈ l, x.length = 1) → l.flatten.map some = l.map List.head? := by
    intro l hl
    induction l with
    | nil => rfl
    | cons x l ih =>
      have h1 := hl x (by simp)
      obtain ⟨a, rfl⟩ := List.length_eq_one_iff.1 h1
      simpa using ih fun y hy => hl y (by simp [hy])
  have h1 : (d.samples.map some).Nodup := by
    unfold Disk.samples
    rw [key]
    · exact h
    · intro x hx
      obtain ⟨s, hs, hx⟩ := List.mem_flatMap.1 hx
      obtain ⟨j, _, rfl⟩ := List.mem_map.1 hx
      unfold Sharder.Subshards.sampleAt
      simp [Sharder.Subshards.cols, hd.column s hs]
  exact List.Nodup.of_map _ h1

/-- No sample of a dataset is in a share twice, or in the shares of two workers. -/
theorem C69_shares_disjoint (d : Disk B C) (hd : d.Ok) (hm : d.maxSamples = none) (world workers : Nat) (hw : 0 < world) (rot : Nat) :
    ((List.range world).flatMap fun r => (List.range (max 1 workers)).flatMap fun i => d.share ⟨r, world, workers⟩ rot i).Nodup := by
  rw [C69_shares d hd hm world workers hw rot]
  exact samples_nodup hd

theorem exTrains (w : Sharder.WorkerConfig) (hw : w.globalWorkers ≤ 5) : ∀ d ∈ [exDisk "a" 10 5, exDisk "b" 100 7], (d.Ok ∧ d.Counted ∧ d.Enough w) ∧ Computes d.load (fun r => some (r.parts.map (·.2)).sum) := by
  intro d hd
  simp only [List.mem_cons, List.not_mem_nil, or_false] at hd
  rcases hd with rfl | rfl
  · exact ⟨⟨exDisk_ok _ _ _ (by decide), (exDisk_val _ _ _ (by decide) (by decide +kernel)).counted, (by show _ ≤ 5; exact hw)⟩, fun _ _ => rfl⟩
  · exact ⟨⟨exDisk_ok _ _ _ (by decide), (exDisk_val _ _ _ (by decide) (by decide +kernel)).counted, (by show _ ≤ 7; omega)⟩, fun _ _ => rfl⟩

/-- Pack pairs, in batches of two. -/
def exP : Encoder Nat Nat :=
  { exE with pack := some (fun _ l => some [l.take 2, l.drop 2], false, plainFinal fun _ l => .ok (l.map (·.content)).sum) }

/-- An example: two datasets, the second worker of the second rank, packing. -/
example := C69_train_contents_partial exR exP [exDisk "a" 10 5, exDisk "b" 100 7] ⟨some 2, true, some 4, 4, some 3, true⟩ ⟨1, 2, 2⟩ 1 (by simp)
  (fun d hd => (exTrains ⟨1, 2, 2⟩ (by decide) d hd).1) (by decide) (by decide) (by intro _ h; cases h; decide) ⟨by simp [exP], by simp⟩
  ⟨by simp [exP, exE], by simp [exP, exE, UserMap.Plain], by simp [exP, exE], rfl, fun _ => ⟨by simp [exP, exE], by simp [exP, exE, UserMap.stateless], (by
    intro p hp
    cases hp
    refine ⟨?_, rfl, (fun _ l => .ok (l.map (·.content)).sum), rfl⟩
    intro i l ps h
    cases h
    intro p hp a ha
    simp only [List.mem_cons, List.not_mem_nil, or_false] at hp
    rcases hp with rfl | rfl
    · exact List.mem_of_mem_take ha
    · exact List.mem_of_mem_drop ha)⟩⟩
  _ (fun d hd => (exTrains ⟨1, 2, 2⟩ (by decide) d hd).2)
  ⟨fun c => [c], fun c => [2 * c], fun l => [l.take 2, l.drop 2], fun l => [l.sum], fun _ => none, fun _ => 2, fun l => some l.sum, fun c => [c]⟩
  ⟨fun _ => rfl, fun _ _ => rfl, (by intro n h; cases h; exact ⟨by decide, by simp, _, _, _, rfl, fun i l => ⟨_, rfl, by simp⟩, fun i l => ⟨rfl, fun h => by cases h⟩⟩),
    (by intro _ h; cases h), fun _ _ => rfl, fun _ => rfl⟩

/-- An example without interruptions, with generator functions, packing and grouping. -/
example := C69_uninterrupted_partial exR exG [exDisk "a" 10 5, exDisk "b" 100 7] ⟨some 2, true, some 3, 4, some 3, true⟩ ⟨1, 2, 2⟩ 1 (by simp)
  (fun d hd => (exTrains ⟨1, 2, 2⟩ (by decide) d hd).1) (by decide) (by decide) (by intro _ h; cases h; decide) ⟨by simp [exG], by simp⟩
  _ (fun d hd => (exTrains ⟨1, 2, 2⟩ (by decide) d hd).2)
  ⟨fun c => [c], fun c => [c, 2 * c], fun l => [l], fun l => l, fun c => some (c % 4), fun _ => 2, fun l => some l.sum, fun _ => [1]⟩
  ⟨fun _ => rfl, fun _ _ => rfl, (by intro n h; cases h; exact ⟨by decide, by simp, _, _, _, rfl, fun i l => ⟨_, rfl, rfl⟩, fun i l => ⟨rfl, fun h => by cases h⟩⟩),
    (by intro _ h; cases h; exact ⟨fun _ => Nat.succ_pos _, fun _ _ => rfl⟩), fun _ _ => rfl, fun _ _ => rfl⟩

end Verif.Pipeline
