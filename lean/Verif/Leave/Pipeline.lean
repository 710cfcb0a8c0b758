import Verif.Leave.Classes
import Verif.Leave.Runs
import Verif.Pipeline.Example
import Verif.Pipeline.ValLoader

/-!
# C80: leaving a loop over the assembled datasets

The builders of `Verif.Pipeline.Model`, which moreover say what leaving a loop does to the state. That the datasets are the same is proved (`trainDsL_forget`,
`valDsL_forget`).
-/

namespace Verif.Pipeline

open Verif.Stream Verif.Wds Verif.Loader

variable {B C K ρ : Type}

/-- A dataset, with what leaving a loop does to its state. -/
structure LDs (C : Type) extends AnyDs C where
  leave : σ → σ

/-- base_webdataset.py:154-171: reader and `MapDataset` for `load_sample` -/
def partLeave : PartS B ρ → PartS B ρ := leaveW ldLeave loopLeave

/-- base.py:502-531 -/
def trainSourceL (R : Rngs ρ) (ds : List (Disk B C)) (w : Sharder.WorkerConfig) (i : Nat) : Except BErr (LDs C) :=
  match ds with
  | [] => .error .noDatasets
  | [d] =>
    match buildPart (R.reader 0) d true w 0 i with
    | .error e => .error e
    | .ok D => .ok ⟨⟨_, _, D⟩, partLeave⟩
  | d :: d' :: l =>
    let rots := Sharder.rotationOffsets ((d :: d' :: l).map Disk.len) w.globalWorkers
    match buildParts R true w i 0 ((d :: d' :: l).zip rots) with
    | .error e => .error e
    | .ok [] => .error .noDatasets
    | .ok (D :: Ds) => .ok ⟨⟨_, _, blendD (nth D Ds) (Ds.length + 1) R.blend⟩, leaveMulti (fun _ => partLeave) blendLeave⟩

/-- base.py:532-537 -/
def shuffleStageL (R : Rngs ρ) (size : Option Nat) (A : LDs C) : LDs C :=
  match size with
  | none => A
  | some n => if 1 < n then ⟨⟨_, _, shuffleD A.D R.shuffle n⟩, leaveW A.leave shufLeave⟩ else A

/-- base.py:444-466, 475-482, 420-426 -/
def mapStageL (u : Option (UserMap C)) (A : LDs C) : LDs C :=
  match u with
  | none => A
  | some (.plain f st) => ⟨⟨_, _, mapD A.D f st⟩, leaveW A.leave loopLeave⟩
  | some (.gen f st) => ⟨⟨_, _, mapGenD A.D f st⟩, leaveW A.leave genLeave⟩

/-- See `onlyIf`. -/
def onlyIfL (stateless : Bool) (A : LDs C) : LDs C := ⟨onlyIf stateless A.toAnyDs, A.leave⟩

/-- base.py:372-393 -/
def packStageL (E : Encoder C K) (size : Option Nat) (A : LDs C) : Except BErr (LDs C) :=
  match size with
  | none => .ok A
  | some n =>
    match E.pack with
    | none => .error .assertion
    | some (pre, gen, f) => .ok (onlyIfL E.packStateless ⟨⟨_, _, packD A.D n pre gen f⟩, leaveW A.leave packLeave⟩)

/-- base.py:395-433 -/
def batchStageL [DecidableEq K] (E : Encoder C K) (batchSize : Option Nat) (dropLast : Bool) (A : LDs C) : Except BErr (LDs C) :=
  match E.group with
  | some key => .ok (onlyIfL false ⟨⟨_, _, groupD A.D batchSize key E.batch dropLast⟩, leaveW A.leave groupLeave⟩)
  | none =>
    match batchSize with
    | some n => .ok (mapStageL E.encodeBatch (onlyIfL E.batchStateless ⟨⟨_, _, batchD A.D n dropLast E.batch⟩, leaveW A.leave batchLeave⟩))
    | none => if E.encodeBatch.isSome || E.batchOverridden then .error .assertion else .ok A

/-- base.py:361-435 -/
def buildBatchL [DecidableEq K] (E : Encoder C K) (batchSize : Option Nat) (dropLast : Bool) (packing : Option Nat) (A : LDs C) :
    Except BErr (LDs C) :=
  match packStageL E packing A with
  | .error e => .error e
  | .ok A => batchStageL E batchSize dropLast A

/-- base.py:547-552 -/
def epochStageL (length nw i : Nat) (A : LDs C) : LDs C :=
  if 0 < length then ⟨⟨_, _, epochizeD A.D length nw i⟩, leaveW id epochLeave⟩ else A

/-- base.py:553-554, 599-600 -/
def logStageL (logging : Bool) (A : LDs C) : LDs C := if logging then ⟨⟨_, _, logD A.D⟩, leaveW A.leave loopLeave⟩ else A

/-- base.py:484-555 -/
def trainDsL [DecidableEq K] (R : Rngs ρ) (E : Encoder C K) (ds : List (Disk B C)) (o : TrainOpts) (w : Sharder.WorkerConfig) (i : Nat) :
    Except BErr (LDs C) :=
  match trainSourceL R ds w i with
  | .error e => .error e
  | .ok A =>
    match buildBatchL E o.batchSize o.dropLast o.packing (mapStageL E.encode (mapStageL E.cook (shuffleStageL R o.shuffleSize A))) with
    | .error e => .error e
    | .ok A => .ok (logStageL o.logging (epochStageL o.epochLength w.numWorkers i A))

/-- base.py:574-582 -/
def valSourceL (R : Rngs ρ) (ds : List (Disk B C)) (w : Sharder.WorkerConfig) (i : Nat) : Except BErr (LDs C) :=
  match ds with
  | [] => .error .noDatasets
  | [d] =>
    match buildPart (R.reader 0) d false w 0 i with
    | .error e => .error e
    | .ok D => .ok ⟨⟨_, _, D⟩, partLeave⟩
  | d :: d' :: l =>
    match buildParts R false w i 0 ((d :: d' :: l).map fun d => (d, 0)) with
    | .error e => .error e
    | .ok [] => .error .noDatasets
    | .ok (D :: Ds) => .ok ⟨⟨_, _, concatD (nth D Ds) (Ds.length + 1)⟩, leaveMulti (fun _ => partLeave) concatLeave⟩

/-- base.py:592-598 -/
def limitStageL (limit : Option Nat) (nw i : Nat) (A : LDs C) : LDs C :=
  match limit with
  | none => A
  | some n => if 0 < n then ⟨⟨_, _, limitD A.D n nw i true⟩, leaveW A.leave limitLeave⟩ else A

/-- base.py:557-601 -/
def valDsL [DecidableEq K] (R : Rngs ρ) (E : Encoder C K) (ds : List (Disk B C)) (o : ValOpts) (w : Sharder.WorkerConfig) (i : Nat) :
    Except BErr (LDs C) :=
  match valSourceL R ds w i with
  | .error e => .error e
  | .ok A =>
    match buildBatchL E (some o.batchSize) o.dropLast o.packing (mapStageL E.encode (mapStageL E.cook A)) with
    | .error e => .error e
    | .ok A => .ok (logStageL o.logging (limitStageL o.limit w.numWorkers i A))

/-- loader.py:102, savable_loader.py:712-730, 1063-1064: the loaders without worker processes (`savable = false`: `get_loader`). -/
def loaderL (savable : Bool) (A : LDs C) (gid : Nat) : LDs C :=
  if savable then ⟨⟨_, _, plainD (gcD A.D) gid⟩, leaveW (leaveW A.leave loopLeave) loopLeave⟩
  else ⟨⟨_, _, plainD (gcD (gcD A.D)) gid⟩, leaveW (leaveW (leaveW A.leave loopLeave) loopLeave) loopLeave⟩

/-! ### The datasets are those of `Verif.Pipeline.Model` -/

/-- Forget what leaving does. -/
def forget (X : Except BErr (LDs C)) : Except BErr (AnyDs C) :=
  match X with
  | .ok A => .ok A.toAnyDs
  | .error e => .error e

theorem shuffleStageL_forget (R : Rngs ρ) (n : Option Nat) (A : LDs C) : (shuffleStageL R n A).toAnyDs = shuffleStage R n A.toAnyDs := by
  unfold shuffleStageL shuffleStage
  cases n with
  | none => rfl
  | some n => simp only; split <;> rfl

theorem mapStageL_forget (u : Option (UserMap C)) (A : LDs C) : (mapStageL u A).toAnyDs = mapStage u A.toAnyDs := by
  unfold mapStageL mapStage
  split <;> rfl

theorem buildBatchL_forget [DecidableEq K] (E : Encoder C K) (bs : Option Nat) (dl : Bool) (pk : Option Nat) (A : LDs C) :
    forget (buildBatchL E bs dl pk A) = buildBatch E bs dl pk A.toAnyDs := by
  have h1 : forget (packStageL E pk A) = packStage E pk A.toAnyDs := by
    unfold packStageL packStage
    cases pk with
    | none => rfl
    | some n =>
      simp only
      cases E.pack <;> rfl
  have h2 : ∀ A : LDs C, forget (batchStageL E bs dl A) = batchStage E bs dl A.toAnyDs := by
    intro A
    unfold batchStageL batchStage
    cases E.group with
    | some key => rfl
    | none =>
      simp only
      cases bs with
      | some n =>
        simp only [forget]
        rw [mapStageL_forget]
        rfl
      | none =>
        simp only
        split <;> rfl
  unfold buildBatchL buildBatch
  rw [← h1]
  cases packStageL E pk A with
  | error e => rfl
  | ok A1 => exact h2 A1

theorem epochStageL_forget (n nw i : Nat) (A : LDs C) : (epochStageL n nw i A).toAnyDs = epochStage n nw i A.toAnyDs := by
  unfold epochStageL epochStage
  split <;> rfl

theorem logStageL_forget (b : Bool) (A : LDs C) : (logStageL b A).toAnyDs = logStage b A.toAnyDs := by cases b <;> rfl

theorem limitStageL_forget (n : Option Nat) (nw i : Nat) (A : LDs C) : (limitStageL n nw i A).toAnyDs = limitStage n nw i A.toAnyDs := by
  unfold limitStageL limitStage
  cases n with
  | none => rfl
  | some n => simp only; split <;> rfl

theorem trainSourceL_forget (R : Rngs ρ) (ds : List (Disk B C)) (w : Sharder.WorkerConfig) (i : Nat) :
    forget (trainSourceL R ds w i) = trainSource R ds w i := by
  match ds with
  | [] => rfl
  | [d] =>
    simp only [trainSourceL, trainSource]
    cases buildPart (R.reader 0) d true w 0 i <;> rfl
  | d :: d' :: l =>
    simp only [trainSourceL, trainSource]
    split
    · simp_all; rfl
    · simp_all; rfl
    · simp_all; rfl

theorem valSourceL_forget (R : Rngs ρ) (ds : List (Disk B C)) (w : Sharder.WorkerConfig) (i : Nat) :
    forget (valSourceL R ds w i) = valSource R ds w i := by
  match ds with
  | [] => rfl
  | [d] =>
    simp only [valSourceL, valSource]
    cases buildPart (R.reader 0) d false w 0 i <;> rfl
  | d :: d' :: l =>
    simp only [valSourceL, valSource]
    split
    · simp_all; rfl
    · simp_all; rfl
    · simp_all; rfl

/-- The training dataset is the one of C65. -/
theorem trainDsL_forget [DecidableEq K] (R : Rngs ρ) (E : Encoder C K) (ds : List (Disk B C)) (o : TrainOpts) (w : Sharder.WorkerConfig) (i : Nat) :
    forget (trainDsL R E ds o w i) = trainDs R E ds o w i := by
  unfold trainDsL trainDs
  rw [← trainSourceL_forget]
  cases trainSourceL R ds w i with
  | error e => rfl
  | ok A =>
    simp only [forget]
    rw [← shuffleStageL_forget, ← mapStageL_forget, ← mapStageL_forget, ← buildBatchL_forget]
    cases buildBatchL E o.batchSize o.dropLast o.packing (mapStageL E.encode (mapStageL E.cook (shuffleStageL R o.shuffleSize A))) with
    | error e => rfl
    | ok A =>
      simp only [forget]
      rw [logStageL_forget, epochStageL_forget]

/-- The validation dataset is the one of C66. -/
theorem valDsL_forget [DecidableEq K] (R : Rngs ρ) (E : Encoder C K) (ds : List (Disk B C)) (o : ValOpts) (w : Sharder.WorkerConfig) (i : Nat) :
    forget (valDsL R E ds o w i) = valDs R E ds o w i := by
  unfold valDsL valDs
  rw [← valSourceL_forget]
  cases valSourceL R ds w i with
  | error e => rfl
  | ok A =>
    simp only [forget]
    rw [← mapStageL_forget, ← mapStageL_forget, ← buildBatchL_forget]
    cases buildBatchL E (some o.batchSize) o.dropLast o.packing (mapStageL E.encode (mapStageL E.cook A)) with
    | error e => rfl
    | ok A =>
      simp only [forget]
      rw [logStageL_forget, limitStageL_forget]

/-- The loader without worker processes is the one of C79. -/
theorem loaderL_forget (cfg : Nat → Loader.Cfg) (A : LDs C) (i gid : Nat) :
    (loaderL false A gid).toAnyDs = loaderDs .basic 0 A.toAnyDs i gid ∧ (loaderL true A gid).toAnyDs = loaderDs (.savable cfg) 0 A.toAnyDs i gid :=
  ⟨rfl, rfl⟩

theorem forget_ok {X : Except BErr (LDs C)} {A : AnyDs C} (h : forget X = .ok A) : ∃ L, X = .ok L ∧ L.toAnyDs = A := by
  cases X with
  | error e => cases h
  | ok L => cases h; exact ⟨L, rfl, rfl⟩

/-! ### Proofs -/

theorem gc_leavable {σ κ : Type} {D : Dataset σ (Smp C) κ} {l : σ → σ} {e : Bool} (h : D.Leavable l e) : (gcD D).Leavable (leaveW l loopLeave) e :=
  by
  unfold gcD
  refine loop_leavable (body := fun _ a => .out a) (rs := D.restoreSample) (has := D.hasSamples) ?_ ?_ ?_ h
  · rfl
  · rfl
  · exact fun _ => rfl

theorem log_leavable {σ κ : Type} {D : Dataset σ (Smp C) κ} {l : σ → σ} {e : Bool} (h : D.Leavable l e) : (logD D).Leavable (leaveW l loopLeave) e :=
  loop_leavable rfl rfl (fun _ => rfl) h

theorem map_leavable {C' : Type} {σ κ : Type} {D : Dataset σ (Smp C) κ} {f : MapFn C C'} {st : Bool} {l : σ → σ} {e : Bool} (h : D.Leavable l e) :
    (mapD D f st).Leavable (leaveW l loopLeave) e :=
  loop_leavable rfl rfl (fun _ => rfl) h

theorem plain_leavable {σ κ : Type} {D : Dataset σ (Smp C) κ} {gid : Nat} {l : σ → σ} {e : Bool} (h : D.Leavable l e) :
    (plainD D gid).Leavable (leaveW l loopLeave) e :=
  by
  unfold plainD
  refine loop_leavable (body := fun n (a : Smp C) => .out (a.addKey (plainKey gid n))) (rs := plainRestore D) (has := D.hasSamples) ?_ ?_ ?_ h
  · rfl
  · rfl
  · exact fun _ => rfl

theorem loaderL_leavable {savable : Bool} {A : LDs C} {gid : Nat} {e : Bool} (h : A.D.Leavable A.leave e) :
    (loaderL savable A gid).D.Leavable (loaderL savable A gid).leave e := by
  cases savable with
  | true => exact plain_leavable (gc_leavable h)
  | false => exact plain_leavable (gc_leavable (gc_leavable h))

theorem logStageL_leavable {b : Bool} {A : LDs C} {e : Bool} (h : A.D.Leavable A.leave e) : (logStageL b A).D.Leavable (logStageL b A).leave e := by
  cases b with
  | true => exact log_leavable h
  | false => exact h

theorem paused_congr {σ α κ : Type} {D D' : Dataset σ α κ} (hi : D'.init = D.init) (hs : D'.step = D.step) (hv : D'.save = D.save) (hr : D'.resume = D.resume)
    {s : σ} (h : D'.Paused false s) : D.Paused false s := by
  induction h with
  | init => rw [hi]; exact .init
  | item _ ho ih => rw [hs] at ho; exact .item ih ho
  | fin _ ho ih => rw [hs] at ho; exact .fin ih ho
  | resume _ ih => rw [hv, hr]; exact .resume ih
  | reset h => cases h

theorem onlyIfL_leavable {b : Bool} {A : LDs C} {e : Bool} (h : A.D.Leavable A.leave e) : (onlyIfL b A).D.Leavable (onlyIfL b A).leave e := by
  obtain ⟨L, h⟩ := h
  have hp : ∀ {s}, (onlyIfL b A).D.Paused false s → A.D.Paused false s := fun hs => paused_congr (D' := (onlyIfL b A).D) (D := A.D) rfl rfl rfl rfl hs
  exact ⟨L, fun s hs => h.refl s (hp hs), fun s t hs => h.leave s t (hp hs), fun s t hs => h.sim s t (hp hs), fun s t hs => h.sim' s t (hp hs), h.save⟩

theorem mapStageL_leavable {u : Option (UserMap C)} (hu : ∀ f, u = some f → f.Plain) {A : LDs C} {e : Bool} (h : A.D.Leavable A.leave e) :
    (mapStageL u A).D.Leavable (mapStageL u A).leave e := by
  unfold mapStageL
  split
  · exact h
  · exact map_leavable h
  · exact (hu _ rfl).elim

theorem buildPart_leavable (R : WRng ρ) {d : Disk B C} (hd : d.Ok) {training : Bool} {w : Sharder.WorkerConfig} (hr : w.rank < w.worldSize) (rot : Nat) {i : Nat}
    (hi : i < w.workers) {D} (h : buildPart R d training w rot i = .ok D) : D.Leavable partLeave false := by
  obtain ⟨p, h1, h2, h3, h4, h5, _⟩ := slicesFor_ok hd hr rot hi
  unfold buildPart at h
  rw [h1] at h
  cases h
  exact map_leavable (loader_leavable (ids_nodup d training h3))

theorem buildParts_leavable (R : Rngs ρ) {training : Bool} {w : Sharder.WorkerConfig} (hr : w.rank < w.worldSize) {i : Nat} (hi : i < w.workers)
    (l : List (Disk B C × Nat)) (hd : ∀ q ∈ l, q.1.Ok) (j : Nat) {Ds} (h : buildParts R training w i j l = .ok Ds) :
    ∀ D ∈ Ds, D.Leavable partLeave false := by
  induction l generalizing j Ds with
  | nil => cases h; simp
  | cons q l ih =>
    obtain ⟨d, rot⟩ := q
    simp only [buildParts] at h
    split at h
    · rename_i D Ds' h1 h2
      cases h
      intro E hE
      rcases List.mem_cons.1 hE with rfl | hE
      · exact buildPart_leavable _ (hd (d, rot) (by simp)) hr rot hi h1
      · exact ih (fun q hq => hd q (by simp [hq])) _ h2 E hE
    · cases h
    · cases h

theorem trainSourceL_leavable (R : Rngs ρ) {ds : List (Disk B C)} {w : Sharder.WorkerConfig} (hr : w.rank < w.worldSize) {i : Nat}
    (hi : i < w.workers) (hd : ∀ d ∈ ds, d.Ok) {A : LDs C} (h : trainSourceL R ds w i = .ok A) : A.D.Leavable A.leave false := by
  match ds, hd, h with
  | [d], hd, h =>
    simp only [trainSourceL] at h
    split at h
    · cases h
    · rename_i D h1
      cases h
      exact buildPart_leavable _ (hd d (by simp)) hr 0 hi h1
  | d :: d' :: l, hd, h =>
    simp only [trainSourceL] at h
    split at h
    · cases h
    · cases h
    · rename_i D Ds h1
      cases h
      have := buildParts_leavable R hr hi _ (fun q hq => hd q.1 (List.of_mem_zip hq).1) 0 h1
      exact blend_leavable fun k => this _ (nth_mem D Ds k)

/-- What a task encoder must be for loops over an endless dataset to be left at any point: no generator functions. -/
structure Encoder.NoGenerators (E : Encoder C K) (packing : Option Nat) : Prop where
  cook : ∀ f, E.cook = some f → f.Plain
  encode : ∀ f, E.encode = some f → f.Plain
  encodeBatch : ∀ f, E.encodeBatch = some f → f.Plain
  pack : packing.isSome → ∀ p, E.pack = some p → p.2.1 = false ∧ ∃ f, p.2.2 = plainFinal f

theorem buildBatchL_leavable [DecidableEq K] {E : Encoder C K} {bs packing : Option Nat} (h : E.NoGenerators packing) (dl : Bool)
    {A A' : LDs C} (hA : A.D.Leavable A.leave false) (hN : A.D.NeverEnds) (hb : buildBatchL E bs dl packing A = .ok A') : A'.D.Leavable A'.leave false := by
  unfold buildBatchL at hb
  have h1 : ∀ A1, packStageL E packing A = .ok A1 → A1.D.Leavable A1.leave false ∧ A1.D.NeverEnds := by
    intro A1 h1
    unfold packStageL at h1
    split at h1
    · cases h1; exact ⟨hA, hN⟩
    · split at h1
      · cases h1
      · rename_i _ _ pre gen f hp
        cases h1
        obtain ⟨e1, f', e2⟩ := h.pack rfl _ hp
        simp only at e1 e2
        subst e1 e2
        exact ⟨onlyIfL_leavable (pack_leavable hA hN), onlyIf_neverEnds (pack_neverEnds hN)⟩
  split at hb
  · cases hb
  · rename_i A1 h2
    obtain ⟨h3, h4⟩ := h1 A1 h2
    unfold batchStageL at hb
    split at hb
    · cases hb
      exact onlyIfL_leavable (group_leavable h3 h4)
    · split at hb
      · cases hb
        exact mapStageL_leavable h.encodeBatch (onlyIfL_leavable (batch_leavable h3 (.inr h4)))
      · split at hb
        · cases hb
        · cases hb
          exact h3

/-- **C80 (training without virtual epochs).** A `for` loop over a training loader without worker processes may be left at any sample, any number of times, with saving and restoring in between: whatever
is delivered then is what would be delivered if no loop were left. This part is for task encoders without generator functions (otherwise see `C80_violated_generator`, `C80_violated_packer`). -/
theorem C80_train_partial [DecidableEq K] (R : Rngs ρ) (E : Encoder C K) (ds : List (Disk B C)) (o : TrainOpts) (w : Sharder.WorkerConfig) (i gid : Nat) (savable : Bool)
    (hne : ds ≠ []) (hds : ∀ d ∈ ds, d.Ok ∧ d.Enough w) (hr : w.rank < w.worldSize) (hi : i < w.workers) (hl : o.epochLength = 0)
    (hE : E.NoGenerators o.packing) (hF : E.Fits o.batchSize o.packing) :
    ∃ A, trainDsL R E ds o w i = .ok A ∧ (loaderL savable A gid).D.LeavesExactly (loaderL savable A gid).leave := by
  obtain ⟨A, h1, h2⟩ := trainSource_ok R hne hr hi hds
  obtain ⟨L, h3, rfl⟩ := forget_ok ((trainSourceL_forget R ds w i).trans h1)
  have h4 := trainSourceL_leavable R hr hi (fun d hd => (hds d hd).1) h3
  have h5 : (shuffleStageL R o.shuffleSize L).D.Leavable (shuffleStageL R o.shuffleSize L).leave false := by
    generalize o.shuffleSize = n
    cases n with
    | none => exact h4
    | some n =>
      by_cases hn : 1 < n
      · have e : shuffleStageL R (some n) L = ⟨⟨_, _, shuffleD L.D R.shuffle n⟩, leaveW L.leave shufLeave⟩ := if_pos hn
        rw [e]
        exact shuffle_leavable h4 h2.endless
      · have e : shuffleStageL R (some n) L = L := if_neg hn
        rw [e]
        exact h4
  have h6 : (shuffleStageL R o.shuffleSize L).D.NeverEnds := by
    have := (shuffleStage_ok R o.shuffleSize h2).endless
    rw [← shuffleStageL_forget] at this
    exact this
  have h7 := mapStageL_leavable hE.encode (mapStageL_leavable hE.cook h5)
  have h8 : (mapStageL E.encode (mapStageL E.cook (shuffleStageL R o.shuffleSize L))).D.NeverEnds := by
    have := mapStage_endless hE.encode (mapStage_endless hE.cook h6)
    rw [← mapStageL_forget, ← mapStageL_forget] at this
    exact this
  obtain ⟨A', h9⟩ := buildBatch_ok hF o.dropLast (mapStageL E.encode (mapStageL E.cook (shuffleStageL R o.shuffleSize L))).toAnyDs
  obtain ⟨L', h10, _⟩ := forget_ok ((buildBatchL_forget _ _ _ _ _).trans h9)
  have h11 := buildBatchL_leavable hE o.dropLast h7 h8 h10
  refine ⟨logStageL o.logging (epochStageL o.epochLength w.numWorkers i L'), by simp only [trainDsL, h3, h10], ?_⟩
  have e : epochStageL o.epochLength w.numWorkers i L' = L' := if_neg (by omega)
  rw [e]
  exact (loaderL_leavable (logStageL_leavable h11)).exactly

/-- **C80 (virtual epochs).** With virtual epochs loops may be left with every task encoder and every dataset: the same samples are delivered as if no loop were left, in the same order; only, a
loop that is left at the last sample of the epoch does not report the end of the epoch. -/
theorem C80_train_epochs [DecidableEq K] (R : Rngs ρ) (E : Encoder C K) (ds : List (Disk B C)) (o : TrainOpts) (w : Sharder.WorkerConfig) (i gid : Nat) (savable : Bool)
    (hl : 0 < o.epochLength) (A : LDs C) (h : trainDsL R E ds o w i = .ok A) :
    (loaderL savable A gid).D.LeavesUpToEnd (loaderL savable A gid).leave := by
  unfold trainDsL at h
  split at h
  · cases h
  · split at h
    · cases h
    · rename_i A' _
      cases h
      refine (loaderL_leavable (e := true) (logStageL_leavable ?_)).upToEnd
      have e : epochStageL o.epochLength w.numWorkers i A' = ⟨⟨_, _, epochizeD A'.D o.epochLength w.numWorkers i⟩, leaveW id epochLeave⟩ := if_pos hl
      rw [e]
      exact epochize_leavable

/-- **C80 (validation, one dataset).** Leaving a loop over a validation loader without worker processes and beginning another one *continues* the pass (as with training; the pass is not begun anew), without
losing or repeating a sample; only the end of a pass is not reported if the loop is left at its last batch. This part is for a single dataset without packing, grouping and limit, and task encoders without generator functions
(otherwise see `C80_violated_concat`, `C80_violated_limit`). -/
theorem C80_val_partial [DecidableEq K] (R : Rngs ρ) (E : Encoder C K) (d : Disk B C) (o : ValOpts) (w : Sharder.WorkerConfig) (i gid : Nat) (savable : Bool)
    (hd : d.Ok) (hr : w.rank < w.worldSize) (hi : i < w.workers) (hE : E.NoGenerators none) (hg : E.group = none) (hp : o.packing = none) (hl : o.limit = none) :
    ∃ A, valDsL R E [d] o w i = .ok A ∧ (loaderL savable A gid).D.LeavesUpToEnd (loaderL savable A gid).leave := by
  obtain ⟨p, h1, _⟩ := slicesFor_ok hd hr 0 hi
  have h2 : buildPart (R.reader 0) d false w 0 i = .ok (partD (R.reader 0) d false (p.map fun s => mkSlice d.tars s.head.name s.head.offset s.head.count)) := by
    unfold buildPart
    rw [h1]
  have h3 := buildPart_leavable (R.reader 0) hd hr 0 hi h2
  refine ⟨_, (by simp only [valDsL, valSourceL, h2, buildBatchL, packStageL, hp, batchStageL, hg, hl, limitStageL]; rfl), ?_⟩
  refine (loaderL_leavable (e := true) (logStageL_leavable (mapStageL_leavable hE.encodeBatch (onlyIfL_leavable ?_)))).upToEnd
  exact batch_leavable (mapStageL_leavable hE.encode (mapStageL_leavable hE.cook h3)) (.inl rfl)

end Verif.Pipeline
