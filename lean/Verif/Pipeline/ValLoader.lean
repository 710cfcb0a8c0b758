import Verif.Pipeline.ValProps
import Verif.Loader.TorchEpoch
import Verif.Loader.PlainProps
import Verif.Loader.WorkerModel

/-! # C79: validation through the loaders: sharding, datasets in all workers of all ranks, worker processes, loop after loop -/

namespace Verif.Pipeline

open Verif.Stream Verif.Wds Verif.Loader

variable {B C K ρ σ κ : Type}

/-! ### Model -/

/-- The two kinds of loaders: `get_loader` and `get_savable_loader` (with the parameters of the worker processes). -/
inductive Kind where
  | basic
  | savable (cfg : Nat → Loader.Cfg)

/-- savable_loader.py:353-426: `SavableDatasetWrapper` as the worker process iterates over it (`Loader.wstep`; the sample index is passed to the main process and is not part
of the sample). Only iteration is of interest here; the other fields of the record are not used. -/
def savableD (D : Dataset σ (Smp C) κ) (cfg : Loader.Cfg) (gid : Nat) : Dataset (σ × WAttr κ) (Smp C) Unit :=
  { init := wfresh D, step := fun p => (wstep D cfg gid p).mapA Prod.snd, save := fun _ => (), resume := fun _ => wfresh D, reset := fun _ => wfresh D,
    restoreSample := wrestoreSample D, hasSamples := D.hasSamples }

/-- loader.py:102, savable_loader.py:1063-1064 (`BasicDataLoader`) and 712-730 (`SavableDataLoader`): the dataset that worker `i` of a rank (global id `gid`) of a loader with `n` worker processes
iterates over. -/
def loaderDs (kind : Kind) (n : Nat) (A : AnyDs C) (i gid : Nat) : AnyDs C :=
  match kind with
  | .basic => ⟨_, _, plainD (gcD (gcD A.D)) gid⟩
  | .savable cfg => if n = 0 then ⟨_, _, plainD (gcD A.D) gid⟩ else ⟨_, _, savableD (gcD A.D) (cfg i) gid⟩

/-- Complete `for` loops, one after the other, over a loader with `n` worker processes, whose workers iterate over the datasets `D 0, ..., D (n-1)`: the samples delivered in each loop, and the states of the
datasets afterwards. The worker processes are persistent: the next loop begins a new iteration over the same dataset objects. Without worker processes the loop
iterates over `D 0` itself.
(torch/utils/data/dataloader.py: `__iter__`, `_reset`; the main process, savable_loader.py:803-853, 1130-1171, hands the samples on.) -/
inductive Loops (n : Nat) (D : Nat → AnyDs C) : List (List (Smp C)) → ((w : Nat) → (D w).σ) → Prop where
  | new : Loops n D [] (fun w => (D w).D.init)
  | single {ls : List (List (Smp C))} {st st' : (w : Nat) → (D w).σ} {xs : List (Smp C)} : n = 0 → Loops n D ls st → (D 0).D.Pass (st 0) xs (st' 0) → Loops n D (ls ++ [xs]) st'
  | workers {ls : List (List (Smp C))} {st st' : (w : Nat) → (D w).σ} {xs : Nat → List (Smp C)} {s : Sys (Smp C)} : 0 < n → Loops n D ls st →
      (∀ w < n, (D w).D.Pass (st w) (xs w) (st' w)) → Reach n (answers xs) s → s.phase = .finished → Loops n D (ls ++ [s.hist.map Prod.snd]) st'

/-! ### Proofs -/

/-- How many samples have been delivered in the passes before pass `k`. -/
def before (out : Nat → List (Smp C)) (k : Nat) : Nat := ((List.range k).map fun j => (out j).length).sum

theorem before_succ (out : Nat → List (Smp C)) (k : Nat) : before out (k + 1) = before out k + (out k).length := by
  simp [before, List.range_succ]

theorem Passes.gc {D : Dataset σ (Smp C) κ} {out : Nat → List (Smp C)} (h : Passes D out) : Passes (gcD D) out := by
  obtain ⟨st, h0, h⟩ := h
  refine ⟨fun k => (st k, ⟨before out k, .loop⟩), ?_, fun k => ?_⟩
  · simp only [h0]; rfl
  · have := C12_gc_pass D (before out k) (out k) _ _ (h k)
    rwa [← before_succ] at this

/-- The same samples, with `t`, the global worker id and the running number (over all passes) put in front of the restore key. -/
def numbered (t : String) (gid : Nat) (out : Nat → List (Smp C)) (k : Nat) : List (Smp C) :=
  ((out k).zipIdx (before out k)).map fun q => ⟨q.1.content, .str t :: .num gid :: .num q.2 :: q.1.key⟩

theorem Passes.plain {D : Dataset σ (Smp C) κ} {out : Nat → List (Smp C)} (h : Passes D out) (gid : Nat) :
    Passes (plainD D gid) (numbered "SimpleSavableDatasetWrapper" gid out) := by
  obtain ⟨st, h0, h⟩ := h
  refine ⟨fun k => (st k, ⟨before out k, .loop⟩), ?_, fun k => ?_⟩
  · simp only [h0]; rfl
  · have := C53_pass D gid (before out k) (out k) _ _ (h k)
    rwa [← before_succ] at this

section savable
variable {D : Dataset σ (Smp C) κ} {cfg : Loader.Cfg} {gid : Nat}

theorem savable_item {s s' : σ} {a : Smp C} {x : WAttr κ} {lws has : Bool} (hc : x.ctl = .run lws has) (hs : x.skip = 0) (h : Obs D.step s (.item a s')) :
    ∃ x' : WAttr κ, Obs (savableD D cfg gid).step (s, x) (.item (a.addKey (loaderKey gid x.idx)) (s', x')) ∧ x'.ctl = .run false true ∧ x'.skip = 0 ∧ x'.idx = x.idx + 1 := by
  have key : ∀ o, Obs D.step s o → ∀ a s', o = .item a s' →
      ∃ x' : WAttr κ, Obs (savableD D cfg gid).step (s, x) (.item (a.addKey (loaderKey gid x.idx)) (s', x')) ∧ x'.ctl = .run false true ∧ x'.skip = 0 ∧ x'.idx = x.idx + 1 := by
    intro o h'
    clear h
    induction h' with
    | @item s b t h =>
      intro a s' e
      cases e
      refine ⟨store cfg false (D.save t) { x with idx := x.idx + 1, ctl := .run false true }, .item ?_, ?_, ?_, ?_⟩
      · simp only [savableD, wstep, hc, h, hs, Nat.lt_irrefl, if_false, Step.mapA]
      all_goals unfold store; split <;> first | rfl | exact hs
    | fin h => intro _ _ e; cases e
    | err h => intro _ _ e; cases e
    | skip h _ ih =>
      intro a s' e
      obtain ⟨x', h1, h2⟩ := ih a s' e
      exact ⟨x', .skip (by simp only [savableD, wstep, hc, h, Step.mapA]) h1, h2⟩
  exact key _ h _ _ rfl

theorem savable_fin {s s' : σ} {x : WAttr κ} {lws has : Bool} (hc : x.ctl = .run lws has) (hl : (has && lws) = false) (h : Obs D.step s (.fin s')) :
    ∃ x' : WAttr κ, Obs (savableD D cfg gid).step (s, x) (.fin (s', x')) ∧ x'.ctl = .fresh ∧ x'.skip = x.skip ∧ x'.idx = x.idx := by
  have key : ∀ o, Obs D.step s o → ∀ s', o = .fin s' →
      ∃ x' : WAttr κ, Obs (savableD D cfg gid).step (s, x) (.fin (s', x')) ∧ x'.ctl = .fresh ∧ x'.skip = x.skip ∧ x'.idx = x.idx := by
    intro o h'
    clear h
    induction h' with
    | @fin s t h =>
      intro s' e
      cases e
      refine ⟨store cfg true (D.save t) { x with ctl := .fresh }, .fin ?_, ?_, ?_, ?_⟩
      · simp only [savableD, wstep, hc, h, hl, Bool.false_eq_true, if_false, Step.mapA]
      all_goals unfold store; split <;> rfl
    | item h => intro _ e; cases e
    | err h => intro _ e; cases e
    | skip h _ ih =>
      intro s' e
      obtain ⟨x', h1, h2⟩ := ih s' e
      exact ⟨x', .skip (by simp only [savableD, wstep, hc, h, Step.mapA]) h1, h2⟩
  exact key _ h _ rfl

theorem savable_pass {s s' : σ} {xs : List (Smp C)} {x : WAttr κ} (hc : x.ctl = .fresh) (hs : x.skip = 0) (h : D.Pass s xs s') :
    ∃ x' : WAttr κ, (savableD D cfg gid).Pass (s, x) ((xs.zipIdx x.idx).map fun q => ⟨q.1.content, .str "SavableDatasetWrapper" :: .num gid :: .num q.2 :: q.1.key⟩) (s', x') ∧
      x'.ctl = .fresh ∧ x'.skip = 0 ∧ x'.idx = x.idx + xs.length := by
  have key : ∀ (xs : List (Smp C)) (s : σ) (x : WAttr κ) (lws has : Bool), x.ctl = .run lws has → (has && lws) = false → x.skip = 0 → D.Pass s xs s' →
      ∃ x' : WAttr κ, (savableD D cfg gid).Pass (s, x) ((xs.zipIdx x.idx).map fun q => ⟨q.1.content, .str "SavableDatasetWrapper" :: .num gid :: .num q.2 :: q.1.key⟩) (s', x') ∧
        x'.ctl = .fresh ∧ x'.skip = 0 ∧ x'.idx = x.idx + xs.length := by
    intro xs
    induction xs with
    | nil =>
      intro s x lws has hc hl hs h
      cases h with
      | fin h1 h2 =>
        cases h2
        obtain ⟨x', h3, h4, h5, h6⟩ := savable_fin (cfg := cfg) (gid := gid) hc hl h1
        exact ⟨x', .fin h3 .nil, h4, h5.trans hs, h6⟩
    | cons a xs ih =>
      intro s x lws has hc hl hs h
      cases h with
      | item h1 h2 =>
        obtain ⟨x1, h3, h4, h5, h6⟩ := savable_item (cfg := cfg) (gid := gid) hc hs h1
        obtain ⟨x', h7, h8, h9, h10⟩ := ih _ x1 _ _ h4 rfl h5 h2
        rw [h6] at h7 h10
        exact ⟨x', .item h3 h7, h8, h9, by rw [h10, List.length_cons]; omega⟩
  obtain ⟨x', h1, h2⟩ := key xs s { x with ctl := .run true false } true false rfl rfl hs h
  refine ⟨x', ?_, h2⟩
  have hstep : (savableD D cfg gid).step (s, x) = .skip (s, { x with ctl := .run true false }) := by
    simp only [savableD, wstep, hc, Step.mapA]
  generalize ((xs.zipIdx x.idx).map fun q => (⟨q.1.content, .str "SavableDatasetWrapper" :: .num gid :: .num q.2 :: q.1.key⟩ : Smp C)) = ys at h1 ⊢
  cases ys with
  | nil =>
    cases h1 with
    | fin h1 h2 => exact .fin (.skip hstep h1) h2
  | cons y ys =>
    cases h1 with
    | item h1 h2 => exact .item (.skip hstep h1) h2

end savable

theorem Passes.savable {D : Dataset σ (Smp C) κ} {out : Nat → List (Smp C)} (h : Passes D out) (cfg : Loader.Cfg) (gid : Nat) :
    Passes (savableD D cfg gid) (numbered "SavableDatasetWrapper" gid out) := by
  obtain ⟨st, h0, h⟩ := h
  have hstep : ∀ k (x : { x : WAttr κ // x.ctl = .fresh ∧ x.skip = 0 ∧ x.idx = before out k }), ∃ x' : { x : WAttr κ // x.ctl = .fresh ∧ x.skip = 0 ∧ x.idx = before out (k + 1) },
      (savableD D cfg gid).Pass (st k, x.1) (numbered "SavableDatasetWrapper" gid out k) (st (k + 1), x'.1) := by
    rintro k ⟨x, h1, h2, h3⟩
    obtain ⟨x', h4, h5, h6, h7⟩ := savable_pass (cfg := cfg) (gid := gid) h1 h2 (h k)
    rw [h3] at h4 h7
    exact ⟨⟨x', h5, h6, by rw [h7, before_succ]⟩, h4⟩
  choose g hg using hstep
  let X : (k : Nat) → { x : WAttr κ // x.ctl = .fresh ∧ x.skip = 0 ∧ x.idx = before out k } :=
    Nat.rec ⟨(wfresh D).2, rfl, rfl, rfl⟩ fun k x => g k x
  exact ⟨fun k => (st k, (X k).1), by simp only [h0]; rfl, fun k => hg k (X k)⟩

theorem leaves_loader (t : String) (g i : Nat) (k : List Key) : leaves (.str t :: .num g :: .num i :: k) = leaves k := by
  cases k with
  | nil => simp [leaves, leaf]
  | cons a k => simp [leaves, leaf]

theorem leavesOf_numbered (t : String) (gid : Nat) (out : Nat → List (Smp C)) (k : Nat) : leavesOf (numbered t gid out k) = leavesOf (out k) := by
  unfold numbered
  generalize before out k = n
  generalize out k = l
  induction l generalizing n with
  | nil => rfl
  | cons a l ih =>
    have := ih (n + 1)
    simp only [leavesOf, List.zipIdx_cons, List.map_cons, List.flatMap_cons, leaves_loader] at this ⊢
    rw [this]

theorem contents_numbered (t : String) (gid : Nat) (out : Nat → List (Smp C)) (k : Nat) : (numbered t gid out k).map (·.content) = (out k).map (·.content) := by
  unfold numbered
  generalize before out k = n
  generalize out k = l
  induction l generalizing n with
  | nil => rfl
  | cons a l ih =>
    have := ih (n + 1)
    simp only [List.zipIdx_cons, List.map_cons] at this ⊢
    rw [this]

/-- What a worker of a loader delivers: the samples of its dataset, numbered. -/
theorem loaderDs_passes (kind : Kind) (n : Nat) {A : AnyDs C} {out : Nat → List (Smp C)} (h : Passes A.D out) (i gid : Nat) :
    ∃ t, Passes (loaderDs kind n A i gid).D (numbered t gid out) := by
  cases kind with
  | basic => exact ⟨_, h.gc.gc.plain gid⟩
  | savable cfg =>
    by_cases hn : n = 0
    · have e : loaderDs (.savable cfg) n A i gid = ⟨_, _, plainD (gcD A.D) gid⟩ := if_pos hn
      rw [e]
      exact ⟨_, h.gc.plain gid⟩
    · have e : loaderDs (.savable cfg) n A i gid = ⟨_, _, savableD (gcD A.D) (cfg i) gid⟩ := if_neg hn
      rw [e]
      exact ⟨_, h.gc.savable (cfg i) gid⟩

/-- What the loops over a loader deliver, given what its workers deliver in each pass. -/
theorem loops_spec {n : Nat} {D : Nat → AnyDs C} {out : Nat → Nat → List (Smp C)} (h : ∀ w < max 1 n, Passes (D w).D (out w)) {ls : List (List (Smp C))}
    {st : (w : Nat) → (D w).σ} (hl : Loops n D ls st) :
    (∀ k (hk : k < ls.length), (n = 0 → ls[k] = out 0 k) ∧
      (0 < n → ∃ K, (∀ w < n, (out w k).length ≤ K) ∧ ls[k] = (rounds n (answers fun w => out w k) K).map Prod.snd)) ∧
    (∀ w < max 1 n, ∃ s : Nat → (D w).σ, s ls.length = st w ∧ ∀ k, (D w).D.Pass (s k) (out w k) (s (k + 1))) := by
  induction hl with
  | new =>
    refine ⟨fun k hk => by simp at hk, fun w hw => ?_⟩
    obtain ⟨s, h0, h1⟩ := h w hw
    exact ⟨s, h0, h1⟩
  | @single ls st st' xs hn hl hp ih =>
    obtain ⟨ih1, ih2⟩ := ih
    obtain ⟨s, h0, h1⟩ := ih2 0 (by omega)
    rw [← h0] at hp
    obtain ⟨e1, e2⟩ := hp.det (h1 _)
    constructor
    · intro k hk
      refine ⟨fun _ => ?_, fun h => by omega⟩
      rw [List.length_append, List.length_singleton] at hk
      rcases Nat.lt_or_ge k ls.length with h | h
      · rw [List.getElem_append_left h]; exact (ih1 k h).1 hn
      · rw [List.getElem_append_right h]
        have : k = ls.length := by omega
        subst this
        simpa using e1
    · intro w hw
      have : w = 0 := by omega
      subst this
      exact ⟨s, by rw [List.length_append, List.length_singleton]; exact e2.symm, h1⟩
  | @workers ls st st' xs s hn hl hp hr hf ih =>
    obtain ⟨ih1, ih2⟩ := ih
    have hx : ∀ w < n, xs w = out w ls.length := by
      intro w hw
      obtain ⟨s, h0, h1⟩ := ih2 w (by omega)
      have := hp w hw
      rw [← h0] at this
      exact (this.det (h1 _)).1
    constructor
    · intro k hk
      refine ⟨fun h => by omega, fun _ => ?_⟩
      rw [List.length_append, List.length_singleton] at hk
      rcases Nat.lt_or_ge k ls.length with h | h
      · rw [List.getElem_append_left h]; exact (ih1 k h).2 hn
      · have : k = ls.length := by omega
        subst this
        obtain ⟨K, h1, h2⟩ := C35_complete hn (answers_sticky xs) hr hf
        refine ⟨K, fun w hw => ?_, ?_⟩
        · rw [← hx w hw]; simpa [answers] using h1 w hw
        · rw [List.getElem_append_right (Nat.le_refl _)]
          simp only [Nat.sub_self, List.getElem_cons_zero, h2]
          congr 1
          unfold rounds
          refine List.flatMap_congr fun j _ => ?_
          unfold Loader.round
          apply filterMap_congr'
          intro w hw
          simp only [answers, hx w (List.mem_range.1 hw)]
    · intro w hw
      obtain ⟨s, h0, h1⟩ := ih2 w hw
      have h3 := hp w (by omega)
      rw [← h0] at h3
      exact ⟨s, by rw [List.length_append, List.length_singleton]; exact (h3.det (h1 _)).2.symm, h1⟩

/-- The samples of one loop are the samples of the passes of the workers. -/
theorem rounds_perm {n : Nat} (xs : Nat → List (Smp C)) {K : Nat} (h : ∀ w < n, (xs w).length ≤ K) :
    ((rounds n (answers xs) K).map Prod.snd).Perm ((List.range n).flatMap xs) := by
  have h3 : ∀ w < n, ofWorker w (rounds n (answers xs) K) = (xs w).map (w, ·) := by
    intro w hw
    rw [ofWorker_rounds hw]
    exact range_filterMap_list (xs w) _ (h w hw)
  refine ((perm_ofWorker n _ fun x hx => mem_rounds hx).map _).trans ?_
  rw [List.map_flatMap]
  apply List.Perm.of_eq
  refine List.flatMap_congr fun w hw => ?_
  rw [h3 w (List.mem_range.1 hw), List.map_map]
  simp [Function.comp_def]

theorem loops_perm {n : Nat} {D : Nat → AnyDs C} {out : Nat → Nat → List (Smp C)} (h : ∀ w < max 1 n, Passes (D w).D (out w)) {ls : List (List (Smp C))}
    {st : (w : Nat) → (D w).σ} (hl : Loops n D ls st) {k : Nat} (hk : k < ls.length) : (ls[k]).Perm ((List.range (max 1 n)).flatMap fun w => out w k) := by
  obtain ⟨h1, h2⟩ := (loops_spec h hl).1 k hk
  cases n with
  | zero => rw [h1 rfl]; simp
  | succ n =>
    obtain ⟨K, h3, h4⟩ := h2 (by omega)
    rw [h4, show max 1 (n + 1) = n + 1 by omega]
    exact rounds_perm _ h3

/-- After any number of loops a further loop can be made; with worker processes it comes to its end whatever the schedule is. -/
theorem loops_go_on {n : Nat} {D : Nat → AnyDs C} {out : Nat → Nat → List (Smp C)} (h : ∀ w < max 1 n, Passes (D w).D (out w)) {ls : List (List (Smp C))}
    {st : (w : Nat) → (D w).σ} (hl : Loops n D ls st) :
    ∃ xs : Nat → List (Smp C), (∀ w < max 1 n, ∃ s', (D w).D.Pass (st w) (xs w) s') ∧ (0 < n → Ends n (answers xs)) ∧ ∃ x st', Loops n D (ls ++ [x]) st' := by
  have h1 : ∀ w, ∃ s', w < max 1 n → (D w).D.Pass (st w) (out w ls.length) s' := by
    intro w
    by_cases hw : w < max 1 n
    · obtain ⟨s, h0, h1⟩ := (loops_spec h hl).2 w hw
      exact ⟨_, fun _ => h0 ▸ h1 ls.length⟩
    · exact ⟨(D w).D.init, fun h => absurd h hw⟩
  choose st' h1 using h1
  refine ⟨fun w => out w ls.length, fun w hw => ⟨_, h1 w hw⟩, fun hn => (C35_loop hn _).1, ?_⟩
  rcases Nat.eq_zero_or_pos n with hn | hn
  · exact ⟨_, st', .single hn hl (h1 0 (by omega))⟩
  · obtain ⟨s, hr, hf⟩ := (C35_loop hn fun w => out w ls.length).1.finished
    exact ⟨_, st', .workers hn hl (fun w hw => h1 w (by omega)) hr hf⟩

theorem leavesOf_flatMap {α : Type} (l : List α) (f : α → List (Smp C)) : leavesOf (l.flatMap f) = l.flatMap fun a => leavesOf (f a) := by
  unfold leavesOf
  rw [List.flatMap_assoc]

/-- worker.py:184-200 `global_worker_id` of worker `i` of rank `r` (without worker processes 0 in every rank). -/
def globalId (workers r i : Nat) : Nat := r * workers + i

/-- The workers of the loader of rank `r`. -/
def rankDs (kind : Kind) (workers : Nat) (A : Nat → Nat → AnyDs C) (r i : Nat) : AnyDs C := loaderDs kind workers (A r i) i (globalId workers r i)


theorem loops_leaves {kind : Kind} {workers : Nat} {A : Nat → Nat → AnyDs C} {out : Nat → Nat → Nat → List (Smp C)} {r : Nat} (h : ∀ i < max 1 workers, Passes (A r i).D (out r i))
    {ls : List (List (Smp C))} {st : (w : Nat) → (rankDs kind workers A r w).σ} (hl : Loops workers (rankDs kind workers A r) ls st) {k : Nat} (hk : k < ls.length) :
    (leavesOf ls[k]).Perm ((List.range (max 1 workers)).flatMap fun i => leavesOf (out r i k)) := by
  have h1 : ∀ i, ∃ t, i < max 1 workers → Passes (rankDs kind workers A r i).D (numbered t (globalId workers r i) (out r i)) := by
    intro i
    by_cases hi : i < max 1 workers
    · obtain ⟨t, ht⟩ := loaderDs_passes kind workers (h i hi) i (globalId workers r i)
      exact ⟨t, fun _ => ht⟩
    · exact ⟨"", fun h => absurd h hi⟩
  choose t h1 using h1
  refine (leavesOf_perm (loops_perm h1 hl hk)).trans (List.Perm.of_eq ?_)
  rw [leavesOf_flatMap]
  exact List.flatMap_congr fun i _ => leavesOf_numbered _ _ _ _

theorem loops_continue {kind : Kind} {workers : Nat} {A : Nat → Nat → AnyDs C} {out : Nat → Nat → Nat → List (Smp C)} {r : Nat} (h : ∀ i < max 1 workers, Passes (A r i).D (out r i))
    {ls : List (List (Smp C))} {st : (w : Nat) → (rankDs kind workers A r w).σ} (hl : Loops workers (rankDs kind workers A r) ls st) :
    ∃ xs : Nat → List (Smp C), (∀ i < max 1 workers, ∃ s', (rankDs kind workers A r i).D.Pass (st i) (xs i) s') ∧ (0 < workers → Ends workers (answers xs)) ∧
      ∃ x st', Loops workers (rankDs kind workers A r) (ls ++ [x]) st' := by
  have h1 : ∀ i, ∃ t, i < max 1 workers → Passes (rankDs kind workers A r i).D (numbered t (globalId workers r i) (out r i)) := by
    intro i
    by_cases hi : i < max 1 workers
    · obtain ⟨t, ht⟩ := loaderDs_passes kind workers (h i hi) i (globalId workers r i)
      exact ⟨t, fun _ => ht⟩
    · exact ⟨"", fun h => absurd h hi⟩
  choose t h1 using h1
  exact loops_go_on h1 hl

/-! ### Theorems -/

/-- **C79, exactly once.** Validation through `get_loader` or `get_savable_loader`, on `world` ranks with `workers` worker processes each (or none). If there is no limit and nothing is dropped or
skipped: the datasets can be built, and however many complete loops have been made over the loader of a rank, in whatever schedule of the processes,

- a further loop can be made: the workers deliver, no process gets stuck and the loop comes to its end,
- in each loop, over all ranks, the batches delivered are made of exactly the samples of the datasets, each once.

Missing: generator functions; `max_samples_per_sequence` (where it is false, see `C67_violated_max_samples`). Loops that are left early: `C79_left_exactly_once_partial`. -/
theorem C79_val_loader_exactly_once_partial [DecidableEq K] (R : Nat → Nat → Rngs ρ) (E : Encoder C K) (ds : List (Disk B C)) (o : ValOpts) (world workers : Nat)
    (hworld : 0 < world) (hne : ds ≠ []) (hds : ∀ d ∈ ds, d.Val ∧ d.maxSamples = none ∧ Total d.load) (hE : E.Safe o.packing) (hT : E.Total) (hb : 0 < o.batchSize)
    (hdl : o.dropLast = false) (hl : o.limit = none) (kind : Kind) :
    ∃ A : Nat → Nat → AnyDs C,
      (∀ r < world, ∀ i < max 1 workers, valDs (R r i) E ds o ⟨r, world, workers⟩ i = .ok (A r i)) ∧
      (∀ r < world, ∀ ls st, Loops workers (rankDs kind workers A r) ls st →
        ∃ xs : Nat → List (Smp C), (∀ i < max 1 workers, ∃ s', (rankDs kind workers A r i).D.Pass (st i) (xs i) s') ∧ (0 < workers → Ends workers (answers xs)) ∧
          ∃ x st', Loops workers (rankDs kind workers A r) (ls ++ [x]) st') ∧
      ∀ (ls : Nat → List (List (Smp C))) (k : Nat), (∀ r < world, k < (ls r).length ∧ ∃ st, Loops workers (rankDs kind workers A r) (ls r) st) →
        ((List.range world).flatMap fun r => leavesOf ((ls r).getD k [])).Perm (ds.flatMap Disk.samples) := by
  obtain ⟨A, out, h1, h2⟩ := C67_val_exactly_once_partial R E ds o world workers hworld hne hds hE hT hb hdl hl
  refine ⟨A, fun r hr i hi => (h1 r hr i hi).1, fun r hr ls st hls => loops_continue (fun i hi => (h1 r hr i hi).2) hls, ?_⟩
  intro ls k hls
  refine List.Perm.trans ?_ (h2 k).1
  refine List.Perm.flatMap_left _ fun r hr => ?_
  have hr := List.mem_range.1 hr
  obtain ⟨hk, st, hst⟩ := hls r hr
  rw [List.getD_eq_getElem?_getD, List.getElem?_eq_getElem hk, Option.getD_some]
  exact loops_leaves (fun i hi => (h1 r hr i hi).2) hst hk

/-- **C79, at most once.** With a limit, dropped last batches, skipped samples, failing functions, `max_samples_per_sequence`, packing, grouping: loops can always be continued and come to their end, and in each loop, over
all ranks, no sample is used twice. Missing: generator functions. Loops that are left early: `C79_left_at_most_once_partial`. -/
theorem C79_val_loader_at_most_once_partial [DecidableEq K] (R : Nat → Nat → Rngs ρ) (E : Encoder C K) (ds : List (Disk B C)) (o : ValOpts) (world workers : Nat)
    (hworld : 0 < world) (hne : ds ≠ []) (hds : ∀ d ∈ ds, d.Val) (hE : E.Safe o.packing) (hb : 0 < o.batchSize) (kind : Kind) :
    ∃ A : Nat → Nat → AnyDs C,
      (∀ r < world, ∀ i < max 1 workers, valDs (R r i) E ds o ⟨r, world, workers⟩ i = .ok (A r i)) ∧
      (∀ r < world, ∀ ls st, Loops workers (rankDs kind workers A r) ls st →
        ∃ xs : Nat → List (Smp C), (∀ i < max 1 workers, ∃ s', (rankDs kind workers A r i).D.Pass (st i) (xs i) s') ∧ (0 < workers → Ends workers (answers xs)) ∧
          ∃ x st', Loops workers (rankDs kind workers A r) (ls ++ [x]) st') ∧
      ∀ (ls : Nat → List (List (Smp C))) (k : Nat), (∀ r < world, k < (ls r).length ∧ ∃ st, Loops workers (rankDs kind workers A r) (ls r) st) →
        ((List.range world).flatMap fun r => leavesOf ((ls r).getD k [])).Subperm (ds.flatMap Disk.samples) := by
  obtain ⟨A, out, h1, h2⟩ := C67_val_at_most_once_partial R E ds o world workers hworld hne hds hE hb
  refine ⟨A, fun r hr i hi => (h1 r hr i hi).1, fun r hr ls st hls => loops_continue (fun i hi => (h1 r hr i hi).2) hls, ?_⟩
  intro ls k hls
  refine List.Subperm.trans (List.Perm.subperm ?_) (h2 k)
  refine List.Perm.flatMap_left _ fun r hr => ?_
  have hr := List.mem_range.1 hr
  obtain ⟨hk, st, hst⟩ := hls r hr
  rw [List.getD_eq_getElem?_getD, List.getElem?_eq_getElem hk, Option.getD_some]
  exact loops_leaves (fun i hi => (h1 r hr i hi).2) hst hk

/-- **C79, order.** For any datasets in the workers that deliver pass after pass the samples `out i 0`, `out i 1`, ...: loop `k` over the loader delivers the samples of pass `k` of the
workers in turns (each worker one sample, those that still have one), whatever the schedule is, and without worker processes the samples of pass `k` of worker 0; with the contents
unchanged. -/
theorem C79_loop_order {kind : Kind} {n r : Nat} {A : Nat → Nat → AnyDs C} {out : Nat → Nat → List (Smp C)} (h : ∀ i < max 1 n, Passes (A r i).D (out i)) {ls : List (List (Smp C))}
    {st : (w : Nat) → (rankDs kind n A r w).σ} (hl : Loops n (rankDs kind n A r) ls st) (k : Nat) (hk : k < ls.length) :
    (n = 0 → ls[k].map (·.content) = (out 0 k).map (·.content)) ∧
    (0 < n → ∃ K, (∀ i < n, (out i k).length ≤ K) ∧ ls[k].map (·.content) = (rounds n (answers fun i => (out i k).map (·.content)) K).map Prod.snd) := by
  have h1 : ∀ i, ∃ t, i < max 1 n → Passes (rankDs kind n A r i).D (numbered t (globalId n r i) (out i)) := by
    intro i
    by_cases hi : i < max 1 n
    · obtain ⟨t, ht⟩ := loaderDs_passes kind n (h i hi) i (globalId n r i)
      exact ⟨t, fun _ => ht⟩
    · exact ⟨"", fun h => absurd h hi⟩
  choose t h1 using h1
  obtain ⟨h2, h3⟩ := (loops_spec h1 hl).1 k hk
  constructor
  · intro hn
    rw [h2 hn, contents_numbered]
  · intro hn
    obtain ⟨K, h4, h5⟩ := h3 hn
    refine ⟨K, fun i hi => by simpa [numbered] using h4 i hi, ?_⟩
    rw [h5]
    unfold rounds Loader.round
    simp only [List.map_flatMap, List.map_filterMap]
    refine List.flatMap_congr fun j _ => ?_
    apply filterMap_congr'
    intro i _
    have e := contents_numbered (t i) (globalId n r i) (out i) k
    simp only [answers]
    rw [← e, List.getElem?_map, Option.map_map]
    cases (numbered (t i) (globalId n r i) (out i) k)[j]? <;> rfl

/-! ### The keys -/

theorem numbered_key {t : String} {gid : Nat} {out : Nat → List (Smp C)} {k : Nat} {x : Smp C} (h : x ∈ numbered t gid out k) :
    ∃ (j : Nat) (rest : List Key), x.key = .str t :: .num gid :: .num j :: rest ∧ before out k ≤ j ∧ j < before out (k + 1) := by
  obtain ⟨q, hq, rfl⟩ := List.mem_map.1 h
  obtain ⟨a, j⟩ := q
  have := List.mem_zipIdx hq
  exact ⟨j, a.key, rfl, this.1, by rw [before_succ]; omega⟩

theorem numbered_nodup (t : String) (gid : Nat) (out : Nat → List (Smp C)) (k : Nat) : ((numbered t gid out k).map (·.key)).Nodup := by
  have key : ∀ (l : List (Smp C)) (n : Nat), ((l.zipIdx n).map fun q => Key.str t :: .num gid :: .num q.2 :: q.1.key).Nodup := by
    intro l
    induction l with
    | nil => intro n; exact .nil
    | cons a l ih =>
      intro n
      rw [List.zipIdx_cons, List.map_cons]
      refine List.nodup_cons.2 ⟨fun h => ?_, ih _⟩
      obtain ⟨q, hq, e⟩ := List.mem_map.1 h
      obtain ⟨b, j⟩ := q
      have := (List.mem_zipIdx hq).1
      simp only [List.cons.injEq, Key.num.injEq, true_and] at e
      omega
  have := key (out k) (before out k)
  simp only [numbered, List.map_map]
  exact this

theorem before_mono (out : Nat → List (Smp C)) {k k' : Nat} (h : k ≤ k') : before out k ≤ before out k' := by
  induction h with
  | refl => exact Nat.le_refl _
  | step _ ih => rw [before_succ]; omega

/-- worker.py:184-200: the global ids of all workers of all ranks are different. -/
theorem globalId_inj {n r r' i i' : Nat} (hi : i < n) (hi' : i' < n) (h : globalId n r i = globalId n r' i') : r = r' ∧ i = i' := by
  unfold globalId at h
  have h1 : (r * n + i) / n = r := by rw [Nat.mul_comm, Nat.mul_add_div (by omega), Nat.div_eq_of_lt hi, Nat.add_zero]
  have h2 : (r' * n + i') / n = r' := by rw [Nat.mul_comm, Nat.mul_add_div (by omega), Nat.div_eq_of_lt hi', Nat.add_zero]
  have e : r = r' := by rw [← h1, ← h2, h]
  subst e
  exact ⟨rfl, by omega⟩

/-- **C79, the keys**: over any number of loops, everything the validation loader of a rank delivers has its own restore key; with worker processes, also what different ranks
deliver. -/
theorem C79_keys_unique {kind : Kind} {n r : Nat} {A : Nat → Nat → AnyDs C} {out : Nat → Nat → Nat → List (Smp C)} (h : ∀ r, ∀ i < max 1 n, Passes (A r i).D (out r i))
    {ls : List (List (Smp C))} {st : (w : Nat) → (rankDs kind n A r w).σ} (hl : Loops n (rankDs kind n A r) ls st) :
    (ls.flatten.map (·.key)).Nodup ∧
    ∀ (r' : Nat) (ls' : List (List (Smp C))) (st' : (w : Nat) → (rankDs kind n A r' w).σ), r ≠ r' → 0 < n → Loops n (rankDs kind n A r') ls' st' →
      ∀ x ∈ ls.flatten, ∀ y ∈ ls'.flatten, x.key ≠ y.key := by
  have h1 : ∀ r i, ∃ t, i < max 1 n → Passes (rankDs kind n A r i).D (numbered t (globalId n r i) (out r i)) := by
    intro r i
    by_cases hi : i < max 1 n
    · obtain ⟨t, ht⟩ := loaderDs_passes kind n (h r i hi) i (globalId n r i)
      exact ⟨t, fun _ => ht⟩
    · exact ⟨"", fun h => absurd h hi⟩
  choose t h1 using h1
  have hin : ∀ {r : Nat} {ls : List (List (Smp C))} {st : (w : Nat) → (rankDs kind n A r w).σ}, Loops n (rankDs kind n A r) ls st → ∀ (k : Nat) (hk : k < ls.length), ∀ x ∈ ls[k],
      ∃ i < max 1 n, x ∈ numbered (t r i) (globalId n r i) (out r i) k := by
    intro r ls st hl k hk x hx
    obtain ⟨i, hi, hx⟩ := List.mem_flatMap.1 ((loops_perm (fun i hi => h1 r i hi) hl hk).mem_iff.1 hx)
    exact ⟨i, List.mem_range.1 hi, hx⟩
  have hid : ∀ {i i' : Nat}, i < max 1 n → i' < max 1 n → globalId n r i = globalId n r i' → i = i' := by
    intro i i' hi hi' e
    unfold globalId at e
    omega
  constructor
  · rw [List.map_flatten, List.nodup_flatten]
    constructor
    · intro l hl'
      obtain ⟨l, hm, rfl⟩ := List.mem_map.1 hl'
      obtain ⟨k, hk, rfl⟩ := List.mem_iff_getElem.1 hm
      refine ((loops_perm (fun i hi => h1 r i hi) hl hk).map (·.key)).nodup_iff.2 ?_
      rw [List.map_flatMap, List.nodup_flatMap]
      refine ⟨fun i _ => numbered_nodup _ _ _ _, ?_⟩
      refine List.Pairwise.imp_of_mem ?_ (List.nodup_range (n := max 1 n))
      intro i i' hi hi' hne x hx hx'
      obtain ⟨a, ha, rfl⟩ := List.mem_map.1 hx
      obtain ⟨b, hb, e⟩ := List.mem_map.1 hx'
      obtain ⟨j, re, e1, _, _⟩ := numbered_key ha
      obtain ⟨j', re', e2, _, _⟩ := numbered_key hb
      have e : b.key = a.key := e
      rw [e1, e2] at e
      simp only [List.cons.injEq, Key.num.injEq] at e
      exact hne (hid (List.mem_range.1 hi) (List.mem_range.1 hi') e.2.1.symm)
    · rw [List.pairwise_iff_getElem]
      intro k k' hk hk' hlt x hx hx'
      rw [List.length_map] at hk hk'
      rw [List.getElem_map] at hx hx'
      obtain ⟨a, ha, rfl⟩ := List.mem_map.1 hx
      obtain ⟨b, hb, e⟩ := List.mem_map.1 hx'
      obtain ⟨i, hi, ha⟩ := hin hl k hk a ha
      obtain ⟨i', hi', hb⟩ := hin hl k' hk' b hb
      obtain ⟨j, re, e1, hj1, hj2⟩ := numbered_key ha
      obtain ⟨j', re', e2, hj1', hj2'⟩ := numbered_key hb
      have e : b.key = a.key := e
      rw [e1, e2] at e
      simp only [List.cons.injEq, Key.num.injEq] at e
      have := hid hi hi' e.2.1.symm
      subst this
      have := before_mono (out r i) (show k + 1 ≤ k' by omega)
      omega
  · intro r' ls' st' hr hn hl' x hx y hy e
    obtain ⟨l, hm, hx⟩ := List.mem_flatten.1 hx
    obtain ⟨k, hk, rfl⟩ := List.mem_iff_getElem.1 hm
    obtain ⟨l', hm', hy⟩ := List.mem_flatten.1 hy
    obtain ⟨k', hk', rfl⟩ := List.mem_iff_getElem.1 hm'
    obtain ⟨i, hi, ha⟩ := hin hl k hk x hx
    obtain ⟨i', hi', hb⟩ := hin hl' k' hk' y hy
    obtain ⟨j, re, e1, _, _⟩ := numbered_key ha
    obtain ⟨j', re', e2, _, _⟩ := numbered_key hb
    rw [e1, e2] at e
    simp only [List.cons.injEq, Key.num.injEq] at e
    exact hr (globalId_inj (by omega) (by omega) e.2.1).1

/-- The hypotheses are satisfiable: two datasets with 4 and 7 samples, 2 ranks with 2 workers. -/
example := C79_val_loader_exactly_once_partial (fun _ _ => exR) exPack [exDisk "a" 10 4, exDisk "b" 100 7] ⟨2, false, some 4, none, true⟩ 2 2 (by decide) (by simp)
  (by
    intro d hd
    simp only [List.mem_cons, List.not_mem_nil, or_false] at hd
    rcases hd with rfl | rfl
    · exact ⟨exDisk_val _ _ _ (by decide) (by decide +kernel), rfl, fun _ _ => ⟨_, rfl⟩⟩
    · exact ⟨exDisk_val _ _ _ (by decide) (by decide +kernel), rfl, fun _ _ => ⟨_, rfl⟩⟩) exPack_safe exPack_total (by decide) rfl rfl (.savable fun _ => ⟨4, 2, fun _ => true⟩)

/-- Any number of loops can be made. -/
theorem loops_exist {n : Nat} {D : Nat → AnyDs C} {out : Nat → Nat → List (Smp C)} (h : ∀ w < max 1 n, Passes (D w).D (out w)) (k : Nat) : ∃ ls st, Loops n D ls st ∧ ls.length = k := by
  induction k with
  | zero => exact ⟨_, _, .new, rfl⟩
  | succ k ih =>
    obtain ⟨ls, st, h1, h2⟩ := ih
    obtain ⟨_, _, _, x, st', h3⟩ := loops_go_on h h1
    exact ⟨_, st', h3, by simp [h2]⟩

end Verif.Pipeline
