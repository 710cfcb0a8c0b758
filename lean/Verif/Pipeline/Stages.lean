import Verif.Pipeline.Content
import Verif.Pipeline.Train
import Verif.Stream.Demand

/-! # What the stages of training make of an endless dataset -/

namespace Verif.Stream

variable {σ κ C C' K : Type}

theorem gen_neverEnds {D : Dataset σ (Smp C) κ} {f : GenFn C C'} {st : Bool} (hN : D.NeverEnds) : (mapGenD D f st).NeverEnds := by
  refine wrap_neverEnds (fun x => x.ctl ≠ .done) (by simp [mapGenW]) (by simp [mapGenW]) ?_ hN
  rintro ⟨n, g, c⟩ h
  cases c with
  | start =>
    cases g with
    | none => simp [mapGenW, Act.NoEnd]
    | some q =>
      obtain ⟨k, off⟩ := q
      simp only [mapGenW]
      cases D.restoreSample k <;> simp [Act.NoEnd]
  | loop => intro a; simp
  | got a => simp [mapGenW, Act.NoEnd]
  | group res k j key l e =>
    cases l with
    | cons c cs => simp [mapGenW, Act.NoEnd]
    | nil =>
      cases e with
      | done => simp [mapGenW, Act.NoEnd]
      | skip => cases res <;> simp [mapGenW, Act.NoEnd]
      | fatal => simp [mapGenW, Act.NoEnd]
  | done => exact absurd rfl h

/-- Control points of the grouping dataset before the end of the source. -/
def groupOpen : GroupCtl C K → Prop
  | .final _ => False
  | _ => True

theorem group_neverEnds [DecidableEq K] {D : Dataset σ (Smp C) κ} {fixed : Option Nat} {key : GroupFn C K} {f : BatchFn C C'} {dl : Bool} (hN : D.NeverEnds) :
    (groupD D fixed key f dl).NeverEnds := by
  refine wrap_neverEnds (fun x => groupOpen x.ctl) trivial (fun _ _ => trivial) ?_ hN
  rintro ⟨g, b, B, c⟩ h
  cases c with
  | loop => intro a; trivial
  | got a =>
    simp only [groupW]
    cases groupSize fixed (key g a) with
    | group k _ =>
      obtain ⟨k, n⟩ := k
      simp only
      cases bucketGet k B with
      | none =>
        simp only [Act.NoEnd]
        split <;> trivial
      | some q =>
        obtain ⟨n', l⟩ := q
        simp only
        split
        · simp only [Act.NoEnd]
          split <;> trivial
        · trivial
    | skip => trivial
    | fatal => trivial
  | flush k =>
    simp only [groupW, groupFlush]
    cases bucketGet k B with
    | none => trivial
    | some q =>
      obtain ⟨n', l⟩ := q
      simp only
      cases f b l <;> trivial
  | final ks => exact h.elim

end Verif.Stream

namespace Verif.Pipeline

open Verif.Stream Verif.Wds

variable {B C K ρ σ κ : Type}

/-! ### Specification -/

/-- The full buffers (batches) of `n` elements each, in order. -/
def fullChunks {α : Type} (n : Nat) (l : List α) : List (List α) := (List.range (l.length / n)).map fun j => (l.drop (j * n)).take n

/-- What is packed while the samples `l` arrive: all that is selected from the full buffers. -/
def Fns.packStream (F : Fns C K) (packing : Option Nat) (l : List C) : List C :=
  match packing with
  | none => l
  | some n => ((fullChunks n l).flatMap F.select).flatMap F.pack

/-- What is batched while the samples `l` arrive: the full batches, in order, or, if there are groups, the full batches of the groups, in the order in which they are completed. Without
a batch size the samples themselves. -/
def Fns.batchStream [DecidableEq K] (F : Fns C K) (grouped : Bool) (batchSize : Option Nat) (l : List C) : List C :=
  if grouped then ((fullBatches (F.sizeOf batchSize) (l.filterMap fun c => (F.group c).map (·, c))).map (·.2)).filterMap F.batch
  else
    match batchSize with
    | some n => ((fullChunks n l).filterMap F.batch).flatMap F.encodeBatch
    | none => l

/-- What is made of the loaded samples `l`, while they arrive. -/
def Fns.stream [DecidableEq K] (F : Fns C K) (grouped : Bool) (batchSize packing : Option Nat) (l : List C) : List C :=
  F.batchStream grouped batchSize (F.packStream packing ((l.flatMap F.cook).flatMap F.encode))

/-! ### Chunks -/

theorem fullChunks_map {α β : Type} (n : Nat) (u : α → β) (l : List α) : fullChunks n (l.map u) = (fullChunks n l).map (List.map u) := by
  unfold fullChunks
  rw [List.length_map, List.map_map]
  refine List.map_congr_left fun j _ => ?_
  simp [List.map_drop, List.map_take]

theorem fullChunks_prefix {α : Type} (n : Nat) {l l' : List α} (h : l <+: l') : fullChunks n l <+: fullChunks n l' := by
  obtain ⟨t, rfl⟩ := h
  have h1 : l.length / n ≤ (l ++ t).length / n := Nat.div_le_div_right (by simp)
  obtain ⟨m, hm⟩ := Nat.exists_eq_add_of_le h1
  refine ⟨(List.range' (l.length / n) m).map fun j => ((l ++ t).drop (j * n)).take n, ?_⟩
  unfold fullChunks
  rw [hm, List.range_add, List.map_append, List.map_map]
  congr 1
  · refine List.map_congr_left fun j hj => ?_
    have hj' := List.mem_range.1 hj
    have h2 : (j + 1) * n ≤ l.length := by
      calc (j + 1) * n ≤ l.length / n * n := Nat.mul_le_mul_right _ hj'
        _ ≤ l.length := Nat.div_mul_le_self _ _
    have h3 : j * n ≤ l.length := by
      refine Nat.le_trans (Nat.mul_le_mul_right n (Nat.le_succ j)) h2
    rw [List.drop_append_of_le_length h3, List.take_append_of_le_length]
    rw [List.length_drop]
    have : (j + 1) * n = j * n + n := by ring
    omega
  · rw [List.range'_eq_map_range, List.map_map]

theorem fullChunks_unique {α : Type} {n : Nat} (hn : 0 < n) {chunks : List (List α)} {l rest : List α} (h1 : l = chunks.flatten ++ rest)
    (h2 : ∀ c ∈ chunks, c.length = n) (h3 : rest.length < n) : fullChunks n l = chunks := by
  have key : ∀ (chunks : List (List α)), (∀ c ∈ chunks, c.length = n) → ∀ j, (hj : j < chunks.length) → ((chunks.flatten ++ rest).drop (j * n)).take n = chunks[j] := by
    intro chunks
    induction chunks with
    | nil => intro _ j hj; simp at hj
    | cons c cs ih =>
      intro h j hj
      have hc := h c (by simp)
      cases j with
      | zero => simp only [Nat.zero_mul, List.drop_zero, List.flatten_cons, List.append_assoc, List.getElem_cons_zero]; rw [← hc, List.take_left]
      | succ j =>
        have e : (j + 1) * n = c.length + j * n := by rw [hc]; ring
        rw [e, List.flatten_cons, List.append_assoc, ← List.drop_drop, List.drop_left, List.getElem_cons_succ]
        exact ih (fun d hd => h d (by simp [hd])) j (by simpa using hj)
  have hl : l.length / n = chunks.length := by
    have : chunks.flatten.length = chunks.length * n := by
      rw [List.length_flatten, List.map_congr_left (g := fun _ => n) h2, List.map_const']; simp
    rw [h1, List.length_append, this]
    rw [Nat.add_comm, Nat.add_mul_div_right _ _ hn, Nat.div_eq_of_lt h3, Nat.zero_add]
  unfold fullChunks
  apply List.ext_getElem
  · simp [hl]
  · intro j h4 h5
    rw [List.getElem_map, List.getElem_range, h1]
    exact key chunks h2 j h5

theorem newBatches_append {α : Type} [DecidableEq K] (size : K → Nat) (pre l m : List (K × α)) :
    newBatches size pre (l ++ m) = newBatches size pre l ++ newBatches size (pre ++ l) m := by
  induction l generalizing pre with
  | nil => simp [newBatches]
  | cons q l ih =>
    simp only [List.cons_append, newBatches]
    rw [ih]
    simp

theorem fullBatches_prefix {α : Type} [DecidableEq K] (size : K → Nat) {l l' : List (K × α)} (h : l <+: l') : fullBatches size l <+: fullBatches size l' := by
  obtain ⟨t, rfl⟩ := h
  rw [fullBatches_eq, fullBatches_eq, newBatches_append]
  exact List.prefix_append _ _

theorem fullBatches_map {α β : Type} [DecidableEq K] (h : α → β) (size : K → Nat) (l : List (K × α)) :
    fullBatches size (l.map (Prod.map id h)) = (fullBatches size l).map (Prod.map id (List.map h)) := by
  have := groupedBatches_map h size true l
  simpa [groupedBatches] using this

theorem flatMap_prefix {α β : Type} (h : α → List β) {l l' : List α} (hp : l <+: l') : l.flatMap h <+: l'.flatMap h := by
  obtain ⟨t, rfl⟩ := hp
  rw [List.flatMap_append]
  exact List.prefix_append _ _

theorem filterMap_prefix {α β : Type} (h : α → Option β) {l l' : List α} (hp : l <+: l') : l.filterMap h <+: l'.filterMap h := by
  obtain ⟨t, rfl⟩ := hp
  rw [List.filterMap_append]
  exact List.prefix_append _ _

theorem map_prefix {α β : Type} (h : α → β) {l l' : List α} (hp : l <+: l') : l.map h <+: l'.map h := by
  obtain ⟨t, rfl⟩ := hp
  rw [List.map_append]
  exact List.prefix_append _ _

/-! ### Stages -/

/-- `ys` were delivered from the beginning. -/
def Gave (A : AnyDs C) (ys : List (Smp C)) : Prop := ∃ q, A.D.Items A.D.init ys q

/-- The stage `A'` over `A` makes `F` of the contents, over endless datasets. -/
structure Stage (A A' : AnyDs C) (F : List C → List C) : Prop where
  endless : A.D.NeverEnds → A'.D.NeverEnds
  mono : ∀ l l', l <+: l' → F l <+: F l'
  gave : A.D.NeverEnds → ∀ ys, Gave A' ys → ∃ xs, Gave A xs ∧ OnDemand F (xs.map (·.content)) (ys.map (·.content))

theorem OnDemand.comp {α β γ : Type} {F : List α → List β} {G : List β → List γ} (hF : ∀ l l', l <+: l' → F l <+: F l') (hG : ∀ l l', l <+: l' → G l <+: G l')
    {xs : List α} {ys : List β} {zs : List γ} (h1 : OnDemand F xs ys) (h2 : OnDemand G ys zs) : OnDemand (fun l => G (F l)) xs zs where
  made := h2.made.trans (hG _ _ h1.made)
  least := by
    intro xs' hp hne
    have h3 := h1.least xs' hp hne
    have h4 : F xs' <+: ys := List.prefix_of_prefix_length_le (hF _ _ hp) h1.made (by omega)
    exact h2.least _ h4 (by intro e; rw [e] at h3; omega)

theorem Stage.comp {A1 A2 A3 : AnyDs C} {F G : List C → List C} (h : Stage A1 A2 F) (h' : Stage A2 A3 G) : Stage A1 A3 (fun l => G (F l)) where
  endless hN := h'.endless (h.endless hN)
  mono l l' hl := h'.mono _ _ (h.mono _ _ hl)
  gave hN ys hy := by
    obtain ⟨xs, h1, h2⟩ := h'.gave (h.endless hN) ys hy
    obtain ⟨ws, h3, h4⟩ := h.gave hN xs h1
    exact ⟨ws, h3, OnDemand.comp h.mono h'.mono h4 h2⟩

theorem Stage.refl (A : AnyDs C) : Stage A A (fun l => l) := ⟨id, fun _ _ h => h, fun _ ys hy => ⟨ys, hy, OnDemand.refl _⟩⟩

theorem Stage.onlyIf {A A' : AnyDs C} {F : List C → List C} {st : Bool} (h : Stage A A' F) : Stage A (onlyIf st A') F where
  endless hN := onlyIf_neverEnds (h.endless hN)
  mono := h.mono
  gave hN ys hy := by
    obtain ⟨q, hy⟩ := hy
    exact h.gave hN ys ⟨q, Dataset.withRestore_run.1 hy⟩

/-- A stage that is a wrapper. -/
theorem stage_of_wrapper {X KX : Type} {A : AnyDs C} {W : Wrapper Unit (Smp C) (Smp C) X KX} (hr : W.NoReset) (hN : A.D.NeverEnds → (wrap A.D W).NeverEnds)
    (F : List (Smp C) → List (Smp C))
    (hF : ∀ xs : List (Smp C), ∃ x f g, W.Trans W.init (xs.map .item) ((F xs).map .item) x ∧ W.act x = .pull () f g) (F' : List C → List C)
    (hm : ∀ l l', l <+: l' → F' l <+: F' l') (hF' : ∀ xs, (F xs).map (·.content) = F' (xs.map (·.content))) : Stage A ⟨_, _, wrap A.D W⟩ F' where
  endless := hN
  mono := hm
  gave := by
    rintro h ys ⟨q, hy⟩
    obtain ⟨xs, h1, h2⟩ := items_onDemand hr h F hF hy
    exact ⟨xs, ⟨_, h1⟩, h2.map hF'⟩

theorem mapStage_stage {u : Option (UserMap C)} {h : C → List C} (hu : Does u h) (A : AnyDs C) : Stage A (mapStage u A) (List.flatMap h) := by
  match u, hu with
  | none, hu =>
    have := Stage.refl A
    rw [show List.flatMap h = fun l => l from funext (flatMap_single hu)]
    exact this
  | some (.plain f st), hu =>
    refine stage_of_wrapper (A := A) loopW_noReset map_neverEnds (fun xs => mapSpec f 0 xs) ?_ _ (fun l l' => flatMap_prefix h) ?_
    · intro xs
      have h1 : loopSpec (mapBody f) 0 xs = some (mapSpec f 0 xs) := by
        rw [mapSpec_eq]
        refine loopSpec_isSome fun q _ e => ?_
        have h2 := hu q.2 q.1
        rw [(mapBody_die f q.2 q.1).1 e] at h2
        exact h2
      exact ⟨_, _, _, loopW_trans h1, rfl⟩
    · intro xs
      rw [mapSpec_contents hu.computes, hu.flatMap]
  | some (.gen f st), hu =>
    refine stage_of_wrapper (A := A) mapGen_noReset gen_neverEnds (fun xs => genOuts f 0 xs) ?_ _ (fun l l' => flatMap_prefix h) ?_
    · intro xs
      have h1 : (mapGenW A.D f st).Trans ⟨0, none, .start⟩ [] [] ⟨0, none, .loop⟩ := .tau (W := mapGenW A.D f st) (by rfl) .nil
      have h2 := h1.append (gen_trans A.D f st (fun i a => by rw [hu i a]; simp) xs 0 none)
      exact ⟨_, _, _, h2, rfl⟩
    · intro xs
      exact genOuts_contents hu 0 xs

theorem packStage_stage {E : Encoder C K} {F : Fns C K} {packing : Option Nat} (h : ∀ n, packing = some n → E.Packs F n) (A : AnyDs C) :
    ∃ A', packStage E packing A = .ok A' ∧ Stage A A' (F.packStream packing) := by
  cases packing with
  | none => exact ⟨A, rfl, Stage.refl A⟩
  | some n =>
    obtain ⟨hn, hne, pre, gen, f, h1, h2, h3⟩ := h n rfl
    refine ⟨_, by simp only [packStage, h1]; rfl, Stage.onlyIf ?_⟩
    choose p hp1 hp2 using h2
    have hne' : ∀ i l, l.length = n → p i l ≠ [] := by
      intro i l hl e
      have := hp2 i l
      rw [e] at this
      exact hne (l.map (·.content)) (by simpa using hl) this.symm
    refine stage_of_wrapper (A := A) pack_noReset pack_neverEnds (fun xs => outP gen f 0 (packsOf p 0 (fullChunks n xs))) ?_ _ ?_ ?_
    · intro xs
      obtain ⟨chunks, rest, r, k1, k2, k3, k4⟩ := pack_loop_trans (D := A.D) (gen := gen) (fun i l => (h3 i l).2) hp1 (.of_always hne') xs 0 0 [] [] (by simpa using hn)
        (by simp) (by simp) (by simp [packsOf])
      rw [List.length_nil, Nat.add_zero] at k4
      rw [List.nil_append] at k1
      rw [fullChunks_unique hn k1 k2 k3]
      have hstart : (packW A.D n pre gen f).Trans ⟨[], [], [], 0, 0, .check 0⟩ [] [] ⟨[], [], [], 0, 0, .fill 0⟩ := .tau (W := packW A.D n pre gen f) (by rfl) .nil
      have hact : ∃ f' g', (packW A.D n pre gen f).act ⟨rest, [], [], 0 + chunks.length, 0 + (packsOf p 0 chunks).length, .fill r⟩ = .pull () f' g' := by
        simp only [packW, List.length_nil, Nat.add_zero, k3, if_true]
        exact ⟨_, _, rfl⟩
      obtain ⟨f', g', hact⟩ := hact
      exact ⟨_, f', g', hstart.append k4, hact⟩
    · intro l l' hl
      exact flatMap_prefix _ (flatMap_prefix _ (fullChunks_prefix n hl))
    · intro xs
      rw [outP_contents fun i l => (h3 i l).1, packsOf_contents hp2, ← fullChunks_map]
      rfl

theorem batchStage_stage [DecidableEq K] {E : Encoder C K} {F : Fns C K} {batchSize packing : Option Nat} (hE : E.Is F batchSize packing) (hF : E.Fits batchSize packing)
    (hb : ∀ n, batchSize = some n → 0 < n) (dl : Bool) (A : AnyDs C) :
    ∃ A', batchStage E batchSize dl A = .ok A' ∧ Stage A A' (F.batchStream E.group.isSome batchSize) := by
  unfold batchStage
  cases hg : E.group with
  | some key =>
    obtain ⟨hk, hg', hs⟩ := hE.sizes hg
    refine ⟨_, rfl, Stage.onlyIf ?_⟩
    refine stage_of_wrapper (A := A) group_noReset group_neverEnds (fun xs => outG E.batch 0 (fullBatches (F.sizeOf batchSize) (keyed batchSize key 0 xs))) ?_ _ ?_ ?_
    · intro xs
      obtain ⟨B, k1, k2⟩ := group_order_loop (D := A.D) (dl := dl) hE.batch.notFatal hk hs xs 0 0 [] []
        ⟨.nil, rfl, fun k => by simp [waiting, bucketGet, leftover, membersOf]⟩
      rw [← fullBatches_eq] at k2
      exact ⟨_, _, _, k2, rfl⟩
    · intro l l' hl
      unfold Fns.batchStream
      exact filterMap_prefix _ (map_prefix _ (fullBatches_prefix _ (filterMap_prefix _ hl)))
    · intro xs
      rw [outG_contents hE.batch]
      unfold Fns.batchStream
      rw [← keyed_contents hg' 0 xs, fullBatches_map, List.map_map]
      rfl
  | none =>
    cases hbs : batchSize with
    | some n =>
      have hn := hb n hbs
      refine ⟨_, rfl, ?_⟩
      refine Stage.comp (F := fun l => (fullChunks n l).filterMap F.batch) (Stage.onlyIf ?_) (mapStage_stage hE.encodeBatch _)
      refine stage_of_wrapper (A := A) batch_noReset (batch_neverEnds _ _ _ _) (fun xs => outB E.batch 0 [] (fullChunks n xs)) ?_ _ ?_ ?_
      · intro xs
        obtain ⟨bss, rest, k1, k2, k3, k4⟩ := batch_loop_trans (D := A.D) (dl := dl) hE.batch.notFatal xs 0 [] [] (by simpa using hn)
        rw [List.nil_append] at k1
        rw [fullChunks_unique hn k1 k2 k3]
        exact ⟨_, _, _, k4, rfl⟩
      · intro l l' hl
        exact filterMap_prefix _ (fullChunks_prefix n hl)
      · intro xs
        rw [outB_contents, batchRes_contents hE.batch, ← fullChunks_map]
    | none =>
      obtain ⟨h1, h2⟩ := hF.batch hg hbs
      refine ⟨A, by simp [h1, h2], Stage.refl A⟩

theorem buildBatch_stage [DecidableEq K] {E : Encoder C K} {F : Fns C K} {batchSize packing : Option Nat} (hE : E.Is F batchSize packing) (hF : E.Fits batchSize packing)
    (hb : ∀ n, batchSize = some n → 0 < n) (dl : Bool) (A : AnyDs C) :
    ∃ A', buildBatch E batchSize dl packing (mapStage E.encode (mapStage E.cook A)) = .ok A' ∧ Stage A A' (F.stream E.group.isSome batchSize packing) := by
  have h1 := (mapStage_stage hE.cook A).comp (mapStage_stage hE.encode _)
  obtain ⟨A1, h2, h3⟩ := packStage_stage hE.pack (mapStage E.encode (mapStage E.cook A))
  obtain ⟨A2, h4, h5⟩ := batchStage_stage hE hF hb dl A1
  exact ⟨A2, by simp only [buildBatch, h2, h4], (h1.comp h3).comp h5⟩

end Verif.Pipeline
