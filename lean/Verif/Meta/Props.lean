import Verif.Meta.Spec
import Mathlib.Data.List.Forall2
import Mathlib.Algebra.BigOperators.Ring.List
import Mathlib.Tactic.Ring
import Mathlib.Tactic.FieldSimp

/-!
# C44, C45, C57, C58: metadatasets
-/

namespace Verif.Meta

variable {V : Type}

/-- A column is built from what is said on its path (`refs` are the references, `c` the further options, the `dataset.yaml` and the split config of the column). -/
structure ColOk (a : Args V) (refs : List (Opts V)) (c : List (Opts V) × Yaml V × String) (d : Ds V) : Prop where
  id : d.id = c.2.1.id
  splitConfig : d.splitConfig = c.2.2
  /-- subflavors: key by key, the outermost wins: the arguments, then the references from outside to inside, at last the `dataset.yaml`. -/
  subflavors : ∀ k, (d.subflavors.bind (· k)) =
    firstKey k (a.subflavors :: (refs ++ c.1).map (·.subflavors) ++ [c.2.1.subflavors])
  /-- the subflavor: the `dataset.yaml` wins, otherwise the outermost -/
  subflavor : d.subflavor = firstGiven (c.2.1.subflavor :: a.subflavor :: (refs ++ c.1).map (·.subflavor))
  /-- the split part: the innermost wins, the argument is the default -/
  splitPart : some d.splitPart =
    firstGiven (c.2.1.splitPart :: ((refs ++ c.1).map (·.splitPart)).reverse ++ [some a.splitPart])

/-- How the built dataset of a leaf depends on the arguments and the options on the path -/
structure LeafOk (a : Args V) (l : Leaf V) (r : Built V × ℚ) : Prop where
  weight : r.2 = l.ratios.prod
  shuffle : r.1.shuffle = a.multiplier * (l.refs.map (·.multiplier)).prod
  cols : List.Forall₂ (ColOk a l.refs) l.cols r.1.cols

theorem firstGiven_append {α : Type} (l l' : List (Option α)) : firstGiven (l ++ l') = (firstGiven l).or (firstGiven l') := by
  induction l with
  | nil => simp [firstGiven]
  | cons a l ih => cases a <;> simp [firstGiven, ih]

theorem firstGiven_cons {α : Type} (a : Option α) (l : List (Option α)) : firstGiven (a :: l) = a.or (firstGiven l) := by
  cases a <;> simp [firstGiven]

theorem mergeOpt_key (k : String) (self outer : Option (Dict V)) :
    (mergeOpt self outer).bind (· k) = (outer.bind (· k)).or (self.bind (· k)) := by
  unfold mergeOpt
  cases self with
  | none => cases outer <;> simp
  | some d => cases outer <;> simp [Dict.merge]

theorem orStr_eq {a b : Option String} (h : a ≠ some "") : orStr a b = a.or b := by
  unfold orStr
  cases a with
  | none => simp
  | some s =>
    have : s ≠ "" := fun e => h (by rw [e])
    simp [this]

theorem col_through {a : Args V} {o : Opts V} {refs : List (Opts V)} {c : List (Opts V) × Yaml V × String} {d : Ds V}
    (ho : o.splitPart ≠ some "" ∧ o.subflavor ≠ some "") (ha : a.subflavor ≠ some "") (h : ColOk (a.through o) refs c d) :
    ColOk a (o :: refs) c d := by
  refine ⟨h.id, h.splitConfig, fun k => ?_, ?_, ?_⟩
  · rw [h.subflavors k]
    simp only [firstKey, Args.through, List.cons_append, List.map_cons, firstGiven_cons, mergeOpt_key, Option.or_assoc]
  · rw [h.subflavor]
    simp only [Args.through, List.cons_append, List.map_cons, firstGiven_cons, orStr_eq ha, Option.or_assoc]
  · rw [h.splitPart]
    simp only [Args.through, List.cons_append, List.map_cons, List.reverse_cons, List.append_assoc, firstGiven_cons, firstGiven_append, List.nil_append, orStr_eq ho.1]
    cases o.splitPart <;> simp [firstGiven]

theorem leaf_through {a : Args V} {o : Opts V} {l : Leaf V} {r : Built V × ℚ}
    (ho : o.splitPart ≠ some "" ∧ o.subflavor ≠ some "") (ha : a.subflavor ≠ some "") (h : LeafOk (a.through o) l r) :
    LeafOk a { l with refs := o :: l.refs } r := by
  refine ⟨h.weight, ?_, ?_⟩
  · rw [h.shuffle]
    simp only [Args.through, List.map_cons, List.prod_cons, mul_assoc]
  · exact h.cols.imp fun _ _ hc => col_through ho ha hc

theorem data_col {a : Args V} {o : Opts V} {y : Yaml V} (pre : List (Opts V)) (sc : Option String) (a' : Args V)
    (hs : ∀ k, a'.subflavors.bind (· k) = firstKey k (a.subflavors :: pre.map (·.subflavors)))
    (hf : a'.subflavor = firstGiven (a.subflavor :: pre.map (·.subflavor)))
    (hp : some a'.splitPart = firstGiven ((pre.map (·.splitPart)).reverse ++ [some a.splitPart])) :
    ColOk a [] (pre ++ [o], y, sc.getD o.splitConfig) (loadData o y a' sc) := by
  refine ⟨rfl, rfl, fun k => ?_, ?_, ?_⟩
  · have h1 := hs k
    have h2 : ∀ (l : List (Option (Dict V))), firstKey k (l ++ [y.subflavors]) = (firstKey k l).or (y.subflavors.bind (· k)) := by
      intro l
      simp only [firstKey, List.map_append, firstGiven_append, List.map_cons, List.map_nil, firstGiven_cons, firstGiven, Option.or_none]
    have h3 : ∀ (l : List (Option (Dict V))), firstKey k (l ++ [o.subflavors]) = (firstKey k l).or (o.subflavors.bind (· k)) := by
      intro l
      simp only [firstKey, List.map_append, firstGiven_append, List.map_cons, List.map_nil, firstGiven_cons, firstGiven, Option.or_none]
    rw [h2]
    simp only [List.nil_append, List.map_append, List.map_cons, List.map_nil]
    rw [← List.cons_append, h3, ← h1, ← mergeOpt_key]
    unfold loadData fromConfig
    simp only
    cases y.subflavors with
    | none => simp
    | some d => cases mergeOpt o.subflavors a'.subflavors <;> simp [Dict.merge]
  · simp only [loadData, fromConfig, List.nil_append, List.map_append, List.map_cons, List.map_nil]
    rw [firstGiven_cons, ← List.cons_append, firstGiven_append, ← hf]
    cases y.subflavor <;> cases a'.subflavor <;> cases o.subflavor <;> simp [firstGiven]
  · simp only [loadData, fromConfig, List.nil_append, List.map_append, List.map_cons, List.map_nil, List.reverse_append, List.reverse_cons,
      List.cons_append, List.reverse_nil, List.nil_append]
    rw [firstGiven_cons, firstGiven_cons, ← hp]
    cases y.splitPart <;> cases o.splitPart <;> simp

theorem data_ok (o : Opts V) (y : Yaml V) (a : Args V) :
    LeafOk a ⟨[], [], [([o], y, o.splitConfig)], a.splitPart⟩ (⟨[loadData o y a none], a.multiplier⟩, 1) := by
  refine ⟨rfl, by simp, .cons (data_col (pre := []) none a ?_ ?_ ?_) .nil⟩
  · intro k; simp [firstKey, firstGiven_cons, firstGiven]
  · simp [firstGiven_cons, firstGiven]
  · simp [firstGiven]

theorem join_ok (o : Opts V) (cols : List (Opts V × Yaml V)) (a : Args V) :
    LeafOk a ⟨[], [], cols.map fun c => ([o, c.1], c.2, o.splitConfig), a.splitPart⟩ (⟨loadJoin o cols a, a.multiplier⟩, 1) := by
  refine ⟨rfl, by simp, ?_⟩
  simp only [loadJoin]
  rw [List.forall₂_map_left_iff, List.forall₂_map_right_iff, List.forall₂_same]
  intro c _
  refine data_col (pre := [o]) (some o.splitConfig) _ ?_ ?_ ?_
  · intro k
    simp only [mergeOpt_key, firstKey, List.map_cons, List.map_nil, firstGiven_cons, firstGiven, Option.or_none]
  · simp only [List.map_cons, List.map_nil]
    cases a.subflavor <;> simp [firstGiven_cons, firstGiven]
  · simp only [List.map_cons, List.map_nil]
    cases o.splitPart <;> simp [firstGiven]

theorem blend_ok {a : Args V} {l : Leaf V} {r : Built V × ℚ} (h : LeafOk a l r) (w sum : ℚ) :
    LeafOk a { l with ratios := w / sum :: l.ratios } (r.1, r.2 * w / sum) := by
  refine ⟨?_, h.shuffle, h.cols⟩
  simp only [List.prod_cons, h.weight]
  ring

mutual
theorem Loader.get_ok (x : Loader V) (a : Args V) (hne : x.NoEmpty) (hp : x.Positive) (ha : a.subflavor ≠ some "") :
    Option.Rel (List.Forall₂ (LeafOk a)) (x.leaves a.splitPart) (x.get a) := by
  cases x with
  | data o y => exact .some (.cons (data_ok o y a) .nil)
  | join o cols => exact .some (.cons (join_ok o cols a) .nil)
  | ref o x =>
    have ha' : (a.through o).subflavor ≠ some "" := by
      simp only [Args.through, orStr_eq ha]
      cases h : a.subflavor with
      | none => simpa using hne.1.2
      | some s => simpa [h] using ha
    have ih := Loader.get_ok x (a.through o) hne.2 hp ha'
    simp only [Loader.leaves, Loader.get]
    have e : (a.through o).splitPart = (orStr o.splitPart (some a.splitPart)).getD a.splitPart := rfl
    rw [e] at ih
    generalize x.leaves ((orStr o.splitPart (some a.splitPart)).getD a.splitPart) = o1 at ih
    generalize x.get (a.through o) = o2 at ih ⊢
    cases ih with
    | none => exact .none
    | some h =>
      refine .some ?_
      rw [List.forall₂_map_left_iff]
      exact h.imp fun _ _ hl => leaf_through hne.1 ha hl
  | blend l => exact Blend.get_ok l l.total a hne hp.1 (ne_of_gt hp.2) ha
  | splits l => exact Splits.get_ok l a hne hp ha
theorem Blend.get_ok (l : Blend V) (sum : ℚ) (a : Args V) (hne : l.NoEmpty) (hp : l.Positive) (hs : sum ≠ 0) (ha : a.subflavor ≠ some "") :
    Option.Rel (List.Forall₂ (LeafOk a)) (l.leaves sum a.splitPart) (l.get sum a) := by
  cases l with
  | nil => exact .some .nil
  | cons w x l =>
    have h1 := Loader.get_ok x a hne.1 hp.2.1 ha
    have h2 := Blend.get_ok l sum a hne.2 hp.2.2 hs ha
    simp only [Blend.leaves, Blend.get]
    generalize x.leaves a.splitPart = o1 at h1
    generalize x.get a = o2 at h1
    generalize l.leaves sum a.splitPart = o3 at h2
    generalize l.get sum a = o4 at h2
    cases h1 with
    | none => exact .none
    | some h1 =>
      cases h2 with
      | none => exact .none
      | some h2 =>
        simp only [hs, false_and, if_false]
        refine .some (List.rel_append ?_ h2)
        rw [List.forall₂_map_left_iff, List.forall₂_map_right_iff]
        exact h1.imp fun _ _ hl => blend_ok hl w sum
theorem Splits.get_ok (l : Splits V) (a : Args V) (hne : l.NoEmpty) (hp : l.Positive) (ha : a.subflavor ≠ some "") :
    Option.Rel (List.Forall₂ (LeafOk a)) (l.leaves a.splitPart) (l.get a.splitPart a) := by
  cases l with
  | nil => exact .none
  | cons n x l =>
    simp only [Splits.leaves, Splits.get]
    split
    · exact Loader.get_ok x a hne.1 hp.1 ha
    · exact Splits.get_ok l a hne.2 hp.2 ha
end

/-- **C45** (and C44): a metadataset gives one dataset for each leaf of the split, in order, with the options and the weight given by its
path. -/
theorem C45_options {x : Loader V} {a : Args V} (hne : x.NoEmpty) (hp : x.Positive) (ha : a.subflavor ≠ some "") {rs : List (Built V × ℚ)}
    (h : x.get a = some rs) : ∃ ls, x.leaves a.splitPart = some ls ∧ List.Forall₂ (LeafOk a) ls rs := by
  have := Loader.get_ok x a hne hp ha
  rw [h] at this
  generalize x.leaves a.splitPart = o at this
  cases this with
  | some h => exact ⟨_, rfl, h⟩

/-- It fails exactly if a split is missing. -/
theorem C45_total {x : Loader V} {a : Args V} (hne : x.NoEmpty) (hp : x.Positive) (ha : a.subflavor ≠ some "") :
    x.get a = none ↔ x.leaves a.splitPart = none := by
  have := Loader.get_ok x a hne hp ha
  generalize x.leaves a.splitPart = o at this
  generalize x.get a = o' at this
  cases this <;> simp

/-- **C45, subflavors**: the value of each key is the one of the outermost level that has it. -/
theorem C45_subflavors {x : Loader V} {a : Args V} (hne : x.NoEmpty) (hp : x.Positive) (ha : a.subflavor ≠ some "") {rs : List (Built V × ℚ)}
    (h : x.get a = some rs) {ls : List (Leaf V)} (hl : x.leaves a.splitPart = some ls) {i j : Nat} {l : Leaf V} {r : Built V × ℚ}
    {c : List (Opts V) × Yaml V × String} {d : Ds V} (h1 : ls[i]? = some l) (h2 : rs[i]? = some r) (h3 : l.cols[j]? = some c)
    (h4 : r.1.cols[j]? = some d) (k : String) :
    d.subflavors.bind (· k) = firstKey k (a.subflavors :: (l.refs ++ c.1).map (·.subflavors) ++ [c.2.1.subflavors]) ∧
    some d.splitPart = firstGiven (c.2.1.splitPart :: ((l.refs ++ c.1).map (·.splitPart)).reverse ++ [some a.splitPart]) := by
  obtain ⟨ls', hl', hf⟩ := C45_options hne hp ha h
  rw [hl] at hl'
  cases hl'
  obtain ⟨_, hf⟩ := List.forall₂_iff_get.1 hf
  obtain ⟨hi1, rfl⟩ := List.getElem?_eq_some_iff.1 h1
  obtain ⟨hi2, rfl⟩ := List.getElem?_eq_some_iff.1 h2
  obtain ⟨_, hc⟩ := List.forall₂_iff_get.1 (hf i hi1 hi2).cols
  obtain ⟨hj1, rfl⟩ := List.getElem?_eq_some_iff.1 h3
  obtain ⟨hj2, rfl⟩ := List.getElem?_eq_some_iff.1 h4
  exact ⟨(hc j hj1 hj2).subflavors k, (hc j hj1 hj2).splitPart⟩

/-! ## C44 -/

mutual
theorem Loader.leaves_sum (x : Loader V) (s : String) (hp : x.Positive) {ls : List (Leaf V)} (h : x.leaves s = some ls) :
    (ls.map fun l => l.ratios.prod).sum = 1 := by
  cases x with
  | data o y =>
    simp only [Loader.leaves, Option.some.injEq] at h
    subst h; simp
  | join o cols =>
    simp only [Loader.leaves, Option.some.injEq] at h
    subst h; simp
  | ref o x =>
    simp only [Loader.leaves, Option.map_eq_some_iff] at h
    obtain ⟨ls', h', rfl⟩ := h
    have := Loader.leaves_sum x _ hp h'
    simpa [Function.comp_def] using this
  | blend l =>
    have := Blend.leaves_sum l l.total s hp.1 h
    rw [this]
    exact div_self (ne_of_gt hp.2)
  | splits l => exact Splits.leaves_sum l s hp h
theorem Blend.leaves_sum (l : Blend V) (sum : ℚ) (s : String) (hp : l.Positive) {ls : List (Leaf V)} (h : l.leaves sum s = some ls) :
    (ls.map fun l => l.ratios.prod).sum = l.total / sum := by
  cases l with
  | nil =>
    simp only [Blend.leaves, Option.some.injEq] at h
    subst h; simp [Blend.total]
  | cons w x l =>
    simp only [Blend.leaves] at h
    split at h
    · next r rs h1 h2 =>
      simp only [Option.some.injEq] at h
      subst h
      have e1 := Loader.leaves_sum x s hp.2.1 h1
      have e2 := Blend.leaves_sum l sum s hp.2.2 h2
      rw [List.map_append, List.sum_append, e2, List.map_map]
      simp only [Function.comp_def, List.prod_cons]
      rw [List.sum_map_mul_left, e1, Blend.total]
      ring
    · cases h
theorem Splits.leaves_sum (l : Splits V) (s : String) (hp : l.Positive) {ls : List (Leaf V)} (h : l.leaves s = some ls) :
    (ls.map fun l => l.ratios.prod).sum = 1 := by
  cases l with
  | nil => cases h
  | cons n x l =>
    simp only [Splits.leaves] at h
    split at h
    · exact Loader.leaves_sum x s hp.1 h
    · exact Splits.leaves_sum l s hp.2 h
end

/-- **C44**: the weights of the datasets of a metadataset with positive weights add up to 1 (in exact arithmetic). -/
theorem C44_sum {x : Loader V} {a : Args V} (hne : x.NoEmpty) (hp : x.Positive) (ha : a.subflavor ≠ some "") {rs : List (Built V × ℚ)}
    (h : x.get a = some rs) : (rs.map (·.2)).sum = 1 := by
  obtain ⟨ls, hl, hf⟩ := C45_options hne hp ha h
  rw [← Loader.leaves_sum x a.splitPart hp hl]
  congr 1
  clear h hl
  induction hf with
  | nil => rfl
  | cons h _ ih => simp only [List.map_cons, ih, h.weight]

/-- **C44**: each weight is the product of the relative weights on the path. -/
theorem C44_weights {x : Loader V} {a : Args V} (hne : x.NoEmpty) (hp : x.Positive) (ha : a.subflavor ≠ some "") {rs : List (Built V × ℚ)}
    (h : x.get a = some rs) : ∃ ls, x.leaves a.splitPart = some ls ∧ rs.map (·.2) = ls.map fun l => l.ratios.prod := by
  obtain ⟨ls, hl, hf⟩ := C45_options hne hp ha h
  refine ⟨ls, hl, ?_⟩
  clear h hl
  induction hf with
  | nil => rfl
  | cons h _ ih => simp only [List.map_cons, ih, h.weight]

/-! ## C57, C58 -/

/-- **C57, the part that holds**: the datasets are shuffled over the product of the multipliers of the argument and the references on the
path. What is missing: multipliers of joins and of joined datasets are ignored (`C57_violated_join`), and `-1` does not mean "infinite" in a
product (`C57_violated_infinite`). -/
theorem C57_multiplier_partial {x : Loader V} {a : Args V} (hne : x.NoEmpty) (hp : x.Positive) (ha : a.subflavor ≠ some "") {rs : List (Built V × ℚ)}
    (h : x.get a = some rs) :
    ∃ ls, x.leaves a.splitPart = some ls ∧
      rs.map (·.1.shuffle) = ls.map fun l => a.multiplier * (l.refs.map (·.multiplier)).prod := by
  obtain ⟨ls, hl, hf⟩ := C45_options hne hp ha h
  refine ⟨ls, hl, ?_⟩
  clear h hl
  induction hf with
  | nil => rfl
  | cons h _ ih => simp only [List.map_cons, ih, h.shuffle]

/-- **C57 is violated** by joins: no multiplier of a join or of its parts has an effect. -/
theorem C57_violated_join (o : Opts V) (cols : List (Opts V × Yaml V)) (a : Args V) (m : Int) :
    (Loader.join { o with multiplier := m } cols).get a = (Loader.join o cols).get a := rfl

/-- **C57 is violated** by `-1`, which means "infinitely many epochs" (draw with replacement): inside of another `-1` it means one epoch, and inside of a
multiplier 2 it is -2, for which no order of shards is defined (sample_loader.py:283-284 raises `ValueError`). -/
theorem C57_violated_infinite :
    ((Loader.refData (V := Unit) { multiplier := -1 } ⟨0, none, none, none⟩).get { splitPart := "train", multiplier := -1 }).map
        (·.map (·.1.shuffle)) = some [1] ∧
      ((Loader.refData (V := Unit) { multiplier := -1 } ⟨0, none, none, none⟩).get { splitPart := "train", multiplier := 2 }).map
        (·.map (·.1.shuffle)) = some [-2] := by
  constructor <;> rfl

/-- **C58 is violated**: the split config of a part of a join is never used, but always the one of the join ("split.yaml" if none is
given). -/
theorem C58_violated (o : Opts V) (c : Opts V × Yaml V) (a : Args V) :
    (loadJoin o [c] a).map (·.splitConfig) = [o.splitConfig] := rfl

/-- **C58, the part that holds**: for references to datasets the split config of the reference is used. What is missing: the parts of joins. -/
theorem C58_ref_partial (o : Opts V) (y : Yaml V) (a : Args V) :
    (((Loader.refData o y).get a).map fun rs => rs.map fun r => r.1.cols.map (·.splitConfig)) = some [[o.splitConfig]] := rfl

/-! ## An example -/

def exA : Loader Nat := .refData { subflavors := some fun k => if k = "x" then some 1 else none } ⟨0, none, none, none⟩
def exB : Loader Nat := .refData { splitPart := some "test" } ⟨1, none, none, some fun k => if k = "x" then some 5 else none⟩
/-- A blend of A (weight 1) and, with weight 3, a blend of A (2) and B (1) with subflavors. -/
def exMeta : Loader Nat :=
  .splits (.cons "train" (.blend (.cons 1 exA (.cons 3
    (.ref { subflavors := some fun k => if k = "x" then some 2 else none, multiplier := 3 }
      (.splits (.cons "train" (.blend (.cons 2 exA (.cons 1 exB .nil))) .nil))) .nil))) .nil)

example : exMeta.NoEmpty ∧ exMeta.Positive := by
  constructor
  · simp [exMeta, exA, exB, Loader.refData, Loader.NoEmpty, Blend.NoEmpty, Splits.NoEmpty]
  · simp [exMeta, exA, exB, Loader.refData, Loader.Positive, Blend.Positive, Splits.Positive, Blend.total]
    norm_num

example : ((exMeta.get { splitPart := "train" }).map fun rs => rs.map fun r =>
      r.1.cols.map (fun d => (d.id, d.splitPart, d.subflavors.bind (· "x")))) =
    some [[(0, "train", some 1)], [(0, "train", some 2)], [(1, "test", some 2)]] := by decide +kernel

example : ((exMeta.get { splitPart := "train" }).map fun rs => rs.map fun r => (r.1.shuffle, r.2)) =
    some [(1, 1 / 4), (3, 1 / 2), (3, 1 / 4)] := by decide +kernel

end Verif.Meta
