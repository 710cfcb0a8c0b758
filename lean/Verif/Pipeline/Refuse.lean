import Verif.Pipeline.Example
import Verif.Wrap.IterMapProps

/-!
# C83: restoring is refused unless every function is stateless
-/

namespace Verif.Stream

variable {σ κ C C' : Type}

/-! ## Specification -/

/-- The key names at least one sample at each of `d` levels of batches (or packs): what the keys of batches look like. -/
def Deep : Nat → List Key → Prop
  | 0, _ => True
  | d + 1, k => ∃ l, Key.tup l ∈ k ∧ Deep d l

/-- `restore_sample` raises for every key with `d` levels of batches. -/
def Dataset.Refuses (d : Nat) (D : Dataset σ (Smp C) κ) : Prop := ∀ k, Deep d k → D.restoreSample k = none

/-! ## The wrappers -/

theorem deep_str {d : Nat} {s : String} {k : List Key} (h : Deep d (.str s :: k)) : Deep d k := by
  cases d with
  | zero => trivial
  | succ d =>
    obtain ⟨l, h1, h2⟩ := h
    exact ⟨l, by simpa using h1, h2⟩

theorem deep_num {d n : Nat} {k : List Key} (h : Deep d (.num n :: k)) : Deep d k := by
  cases d with
  | zero => trivial
  | succ d =>
    obtain ⟨l, h1, h2⟩ := h
    exact ⟨l, by simpa using h1, h2⟩

theorem keyTuples_cons (y : List Key) (k : List Key) : keyTuples (.tup y :: k) = (keyTuples k).map (y :: ·) := by
  unfold keyTuples
  rw [List.mapM_cons]
  cases List.mapM (m := Option) _ k <;> rfl

theorem keyTuples_mem {k : List Key} {ks : List (List Key)} (h : keyTuples k = some ks) {l : List Key} (hl : Key.tup l ∈ k) : l ∈ ks := by
  induction k generalizing ks with
  | nil => cases hl
  | cons x k ih =>
    cases x with
    | str s => simp [keyTuples, List.mapM_cons] at h
    | num n => simp [keyTuples, List.mapM_cons] at h
    | tup y =>
      rw [keyTuples_cons] at h
      cases e : keyTuples k with
      | none => rw [e] at h; cases h
      | some ys =>
        rw [e] at h
        cases h
        rcases List.mem_cons.1 hl with hl | hl
        · cases hl; simp
        · exact List.mem_cons_of_mem _ (ih e hl)

theorem mapM_none_of {β γ : Type} {f : β → Option γ} {l : List β} {b : β} (hb : b ∈ l) (h : f b = none) : l.mapM f = none := by
  induction l with
  | nil => cases hb
  | cons a l ih =>
    rw [List.mapM_cons]
    rcases List.mem_cons.1 hb with rfl | hb
    · rw [h]; rfl
    · cases f a with
      | none => rfl
      | some c => rw [ih hb]; rfl

/-- **C83.** A map function that is not declared stateless: no sample can be restored, whatever the key. -/
theorem C83_map (D : Dataset σ (Smp C) κ) (f : MapFn C C') : (mapD D f false).Refuses 0 := by
  intro k _
  show mapRestore D f false k = none
  match k with
  | [] => rfl
  | [.str _] => rfl
  | .str _ :: .num _ :: _ => simp [mapRestore]
  | .str _ :: .str _ :: _ => rfl
  | .str _ :: .tup _ :: _ => rfl
  | .num _ :: _ => rfl
  | .tup _ :: _ => rfl

/-- **C83.** The same for generator functions. -/
theorem C83_map_generator (D : Dataset σ (Smp C) κ) (f : GenFn C C') : (mapGenD D f false).Refuses 0 := by
  intro k _
  simp only [mapGenD, wrap, mapGenW]
  split <;> simp

/-- **C83.** The same for functions on iterators. -/
theorem C83_iter_map (D : Dataset σ (Smp C) κ) (g : IterFn C C') : (iterMapD D g false).Refuses 0 := by
  intro k _
  simp only [iterMapD, wrap, iterMapW]
  split <;> simp

theorem map_refuses {d : Nat} {D : Dataset σ (Smp C) κ} (h : D.Refuses d) (f : MapFn C C') (st : Bool) : (mapD D f st).Refuses d := by
  intro k hk
  show mapRestore D f st k = none
  unfold mapRestore
  split
  · split
    · rw [h _ (deep_num (deep_str hk))]
    · rfl
  · rfl

theorem mapGen_refuses {d : Nat} {D : Dataset σ (Smp C) κ} (h : D.Refuses d) (f : GenFn C C') (st : Bool) : (mapGenD D f st).Refuses d := by
  intro k hk
  simp only [mapGenD, wrap, mapGenW]
  split
  · split
    · rw [h _ (deep_num (deep_num (deep_str hk)))]
    · rfl
  · rfl

theorem nested_none {d : Nat} {D : Dataset σ (Smp C) κ} (h : D.Refuses d) {k : List Key} (hk : Deep (d + 1) k) :
    ((keyTuples k).bind fun ks => ks.mapM D.restoreSample) = none := by
  obtain ⟨l, h1, h2⟩ := hk
  cases e : keyTuples k with
  | none => rfl
  | some ks => exact mapM_none_of (keyTuples_mem e h1) (h l h2)

theorem batch_refuses {d : Nat} {D : Dataset σ (Smp C) κ} (h : D.Refuses d) (bs : Nat) (dl : Bool) (f : BatchFn C C') :
    (batchD D bs dl f).Refuses (d + 1) := by
  intro k hk
  simp only [batchD, wrap, batchW]
  split
  · split
    · rw [nested_none h (deep_num (deep_str hk))]
    · rfl
  · rfl

theorem pack_refuses {d : Nat} {D : Dataset σ (Smp C) κ} (h : D.Refuses d) (size : Nat) (pre : PreFn C) (gen : Bool) (f : FinalFn C C') :
    (packD D size pre gen f).Refuses (d + 1) := by
  intro k hk
  simp only [packD, wrap, packW]
  split
  · split
    · rw [nested_none h (deep_num (deep_str hk))]
    · rfl
  · split
    · rw [nested_none h (deep_num (deep_num (deep_str hk)))]
    · rfl
  · rfl

theorem Dataset.Refuses.mono {d e : Nat} {D : Dataset σ (Smp C) κ} (h : D.Refuses d) (he : d ≤ e) : D.Refuses e := by
  intro k hk
  refine h k ?_
  clear h
  induction d generalizing e k with
  | zero => trivial
  | succ d ih =>
    obtain ⟨e, rfl⟩ : ∃ e', e = e' + 1 := ⟨e - 1, by omega⟩
    obtain ⟨l, h1, h2⟩ := hk
    exact ⟨l, h1, ih (by omega) l h2⟩

end Verif.Stream

namespace Verif.Pipeline

open Verif.Stream

variable {C K B ρ : Type}

/-- The function is declared stateless (or there is none). -/
def declared : Option (UserMap C) → Bool
  | none => true
  | some (.plain _ st) => st
  | some (.gen _ st) => st

/-- All the functions of a task encoder that are used are declared stateless. -/
structure Encoder.Declared (E : Encoder C K) (batchSize packing : Option Nat) : Prop where
  cook : declared E.cook = true
  encode : declared E.encode = true
  pack : packing.isSome → E.packStateless = true
  batch : batchSize.isSome → E.batchStateless = true
  encodeBatch : declared E.encodeBatch = true

/-- The number of levels in the keys of the batches: one for packing, one for batching -/
def levels (batchSize packing : Option Nat) : Nat := (if packing.isSome then 1 else 0) + (if batchSize.isSome then 1 else 0)

theorem mapStage_refuses {u : Option (UserMap C)} {d : Nat} {A : AnyDs C} (h : A.D.Refuses d) : (mapStage u A).D.Refuses d := by
  match u with
  | none => exact h
  | some (.plain f st) => exact map_refuses h f st
  | some (.gen f st) => exact mapGen_refuses h f st

theorem mapStage_undeclared {u : Option (UserMap C)} (hu : declared u ≠ true) (A : AnyDs C) : (mapStage u A).D.Refuses 0 := by
  match u with
  | none => exact absurd rfl hu
  | some (.plain f true) => exact absurd rfl hu
  | some (.gen f true) => exact absurd rfl hu
  | some (.plain f false) => exact C83_map _ f
  | some (.gen f false) => exact C83_map_generator _ f

theorem onlyIf_refuses {st : Bool} {d : Nat} {A : AnyDs C} (h : A.D.Refuses d) : (onlyIf st A).D.Refuses d := by
  intro k hk
  show (if st then A.D.restoreSample k else none) = none
  split
  · exact h k hk
  · rfl

theorem logStage_refuses {b : Bool} {d : Nat} {A : AnyDs C} (h : A.D.Refuses d) : (logStage b A).D.Refuses d := by
  cases b
  · exact h
  · exact h

theorem epochStage_refuses {l nw i d : Nat} {A : AnyDs C} (h : A.D.Refuses d) : (epochStage l nw i A).D.Refuses d := by
  by_cases hl : 0 < l
  · have e : epochStage l nw i A = ⟨_, _, epochizeD A.D l nw i⟩ := if_pos hl
    rw [e]
    exact h
  · have e : epochStage l nw i A = A := if_neg hl
    rw [e]
    exact h

theorem limitStage_refuses {l : Option Nat} {nw i d : Nat} {A : AnyDs C} (h : A.D.Refuses d) : (limitStage l nw i A).D.Refuses d := by
  unfold limitStage
  cases l with
  | none => exact h
  | some n =>
    by_cases hn : 0 < n
    · have e : (if 0 < n then (⟨_, _, limitD A.D n nw i true⟩ : AnyDs C) else A) = ⟨_, _, limitD A.D n nw i true⟩ := if_pos hn
      simp only
      rw [e]
      exact h
    · have e : (if 0 < n then (⟨_, _, limitD A.D n nw i true⟩ : AnyDs C) else A) = A := if_neg hn
      simp only
      rw [e]
      exact h

/-- The stages after cooking -/
theorem stages_refuse [DecidableEq K] (E : Encoder C K) (batchSize packing : Option Nat) (dl : Bool) (A A' : AnyDs C)
    (hE : ¬ (E.Declared batchSize packing ∧ E.group = none))
    (h : buildBatch E batchSize dl packing (mapStage E.encode (mapStage E.cook A)) = .ok A') : A'.D.Refuses (levels batchSize packing) := by
  have hpack : ∀ A1 A2 d, packStage E packing A1 = .ok A2 → A1.D.Refuses d → A2.D.Refuses (d + if packing.isSome then 1 else 0) := by
    intro A1 A2 d h1 hr
    unfold packStage at h1
    cases packing with
    | none => cases h1; exact hr
    | some n =>
      simp only at h1
      cases hp : E.pack with
      | none => rw [hp] at h1; cases h1
      | some p =>
        obtain ⟨pre, gen, f⟩ := p
        rw [hp] at h1
        cases h1
        exact onlyIf_refuses (pack_refuses hr n pre gen f)
  have hbatch : ∀ A1 A2 d, batchStage E batchSize dl A1 = .ok A2 → A1.D.Refuses d → A2.D.Refuses (d + if batchSize.isSome then 1 else 0) := by
    intro A1 A2 d h1 hr
    unfold batchStage at h1
    cases hg : E.group with
    | some key =>
      rw [hg] at h1
      cases h1
      intro k _
      rfl
    | none =>
      rw [hg] at h1
      cases batchSize with
      | some n =>
        cases h1
        exact mapStage_refuses (onlyIf_refuses (batch_refuses hr n dl E.batch))
      | none =>
        simp only at h1
        split at h1
        · cases h1
        · cases h1; exact hr
  unfold buildBatch at h
  cases hp : packStage E packing (mapStage E.encode (mapStage E.cook A)) with
  | error e => rw [hp] at h; cases h
  | ok A1 =>
    rw [hp] at h
    simp only at h
    have fin : ∀ d, A1.D.Refuses d → d ≤ (if packing.isSome then 1 else 0) → A'.D.Refuses (levels batchSize packing) := by
      intro d hd hle
      exact (hbatch A1 A' _ h (hd.mono hle))
    by_cases h1 : declared E.cook = true
    · by_cases h2 : declared E.encode = true
      · by_cases h3 : packing.isSome → E.packStateless = true
        · -- the batch stage
          by_cases hg : E.group = none
          · unfold batchStage at h
            rw [hg] at h
            cases batchSize with
            | some n =>
              cases h
              by_cases h4 : E.batchStateless = true
              · have h5 : declared E.encodeBatch ≠ true := fun h5 => hE ⟨⟨h1, h2, h3, fun _ => h4, h5⟩, hg⟩
                exact (mapStage_undeclared h5 _).mono (Nat.zero_le _)
              · refine Dataset.Refuses.mono (d := 0) (mapStage_refuses ?_) (Nat.zero_le _)
                intro k _
                show (if E.batchStateless then _ else none) = none
                rw [if_neg h4]
            | none =>
              simp only at h
              split at h
              · cases h
              · rename_i he
                have h5 : declared E.encodeBatch = true := by
                  cases hb : E.encodeBatch with
                  | none => rfl
                  | some u => simp [hb] at he
                exact absurd ⟨⟨h1, h2, h3, by simp, h5⟩, hg⟩ hE
          · obtain ⟨key, hkey⟩ := Option.ne_none_iff_exists'.1 hg
            unfold batchStage at h
            rw [hkey] at h
            cases h
            intro k _
            rfl
        · have hsome : packing.isSome = true := by
            cases hb : packing.isSome
            · simp [hb] at h3
            · rfl
          have hst : ¬ E.packStateless = true := fun hs => h3 fun _ => hs
          refine fin 0 ?_ (Nat.zero_le _)
          intro k _
          unfold packStage at hp
          cases packing with
          | none => cases hsome
          | some n =>
            simp only at hp
            cases hq : E.pack with
            | none => rw [hq] at hp; cases hp
            | some p =>
              obtain ⟨pre, gen, f⟩ := p
              rw [hq] at hp
              cases hp
              show (if E.packStateless then _ else none) = none
              rw [if_neg hst]
      · exact fin _ (hpack _ _ 0 hp (mapStage_undeclared h2 _)) (by omega)
    · exact fin _ (hpack _ _ 0 hp (mapStage_refuses (mapStage_undeclared h1 _))) (by omega)

/-- **C83, training.** If one of the functions of the task encoder is not declared stateless (or there is a group criterion), `restore_sample` raises for every
key of a batch: it never returns something that may differ from the batch of the key. -/
theorem C83_train [DecidableEq K] (R : Rngs ρ) (E : Encoder C K) (ds : List (Disk B C)) (o : TrainOpts) (w : Sharder.WorkerConfig) (i : Nat)
    (hE : ¬ (E.Declared o.batchSize o.packing ∧ E.group = none)) (A : AnyDs C) (h : trainDs R E ds o w i = .ok A) :
    A.D.Refuses (levels o.batchSize o.packing) := by
  unfold trainDs at h
  cases hs : trainSource R ds w i with
  | error e => rw [hs] at h; cases h
  | ok A0 =>
    rw [hs] at h
    simp only at h
    cases hb : buildBatch E o.batchSize o.dropLast o.packing (mapStage E.encode (mapStage E.cook (shuffleStage R o.shuffleSize A0))) with
    | error e => rw [hb] at h; cases h
    | ok A1 =>
      rw [hb] at h
      cases h
      exact logStage_refuses (epochStage_refuses (stages_refuse E _ _ _ _ _ hE hb))

/-- **C83, validation.** -/
theorem C83_val [DecidableEq K] (R : Rngs ρ) (E : Encoder C K) (ds : List (Disk B C)) (o : ValOpts) (w : Sharder.WorkerConfig) (i : Nat)
    (hE : ¬ (E.Declared (some o.batchSize) o.packing ∧ E.group = none)) (A : AnyDs C) (h : valDs R E ds o w i = .ok A) :
    A.D.Refuses (levels (some o.batchSize) o.packing) := by
  unfold valDs at h
  cases hs : valSource R ds w i with
  | error e => rw [hs] at h; cases h
  | ok A0 =>
    rw [hs] at h
    simp only at h
    cases hb : buildBatch E (some o.batchSize) o.dropLast o.packing (mapStage E.encode (mapStage E.cook A0)) with
    | error e => rw [hb] at h; cases h
    | ok A1 =>
      rw [hb] at h
      cases h
      exact logStage_refuses (limitStage_refuses (stages_refuse E _ _ _ _ _ hE hb))

/-- A case for the theorems: the encoder of the examples, with a function that is not declared stateless; the keys of its batches have one level. -/
example : ¬ (({ exE with encode := some (.plain (fun _ a => .ok (2 * a.content)) false) } : Encoder Nat Nat).Declared exO.batchSize exO.packing ∧
      exE.group = none) ∧ levels exO.batchSize exO.packing = 1 ∧
    Deep 1 [.str "BatchDataset", .num 0, .tup [.str "MapDataset", .num 0], .tup [.str "MapDataset", .num 1]] :=
  ⟨fun h => by have := h.1.encode; simp [declared] at this, rfl, _, by simp; exact .inl rfl, trivial⟩

end Verif.Pipeline
