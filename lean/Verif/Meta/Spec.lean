import Verif.Meta.Model

/-!
# Specification: the leaves of a metadataset and what is said on their paths
-/

namespace Verif.Meta

variable {V : Type}

/-- One leaf of a metadataset for a given split: the options of the references and joins on the path to each of its columns (the outermost first), the
relative weights in the blends on the path, the columns. -/
structure Leaf (V : Type) where
  /-- references on the path, the outermost first -/
  refs : List (Opts V)
  /-- relative weights of the blends on the path -/
  ratios : List ℚ
  /-- the columns: further options (of the join, of the column), the `dataset.yaml`, the split config -/
  cols : List (List (Opts V) × Yaml V × String)
  /-- the split that is asked for at the leaf -/
  split : String

mutual
/-- The leaves, in order, of a loader from which the split `s` is asked for. -/
def Loader.leaves : Loader V → String → Option (List (Leaf V))
  | .data o y, s => some [⟨[], [], [([o], y, o.splitConfig)], s⟩]
  | .join o cols, s => some [⟨[], [], cols.map fun c => ([o, c.1], c.2, o.splitConfig), s⟩]
  | .ref o x, s =>
    (x.leaves ((orStr o.splitPart (some s)).getD s)).map fun ls => ls.map fun l => { l with refs := o :: l.refs }
  | .blend l, s => l.leaves l.total s
  | .splits l, s => l.leaves s
def Blend.leaves : Blend V → ℚ → String → Option (List (Leaf V))
  | .nil, _, _ => some []
  | .cons w x l, sum, s =>
    match x.leaves s, l.leaves sum s with
    | some r, some rs => some (r.map (fun e => { e with ratios := w / sum :: e.ratios }) ++ rs)
    | _, _ => none
def Splits.leaves : Splits V → String → Option (List (Leaf V))
  | .nil, _ => none
  | .cons n x l, s => if n = s then x.leaves s else l.leaves s
end

mutual
/-- All weights of all blends are positive. -/
def Loader.Positive : Loader V → Prop
  | .data _ _ => True
  | .join _ _ => True
  | .ref _ x => x.Positive
  | .blend l => l.Positive ∧ 0 < l.total
  | .splits l => l.Positive
def Blend.Positive : Blend V → Prop
  | .nil => True
  | .cons w x l => 0 < w ∧ x.Positive ∧ l.Positive
def Splits.Positive : Splits V → Prop
  | .nil => True
  | .cons _ x l => x.Positive ∧ l.Positive
end

mutual
/-- Strings given in a configuration are not empty. -/
def Loader.NoEmpty : Loader V → Prop
  | .data o _ => o.splitPart ≠ some "" ∧ o.subflavor ≠ some ""
  | .join o cols => (o.splitPart ≠ some "" ∧ o.subflavor ≠ some "") ∧ ∀ c ∈ cols, c.1.splitPart ≠ some "" ∧ c.1.subflavor ≠ some ""
  | .ref o x => (o.splitPart ≠ some "" ∧ o.subflavor ≠ some "") ∧ x.NoEmpty
  | .blend l => l.NoEmpty
  | .splits l => l.NoEmpty
def Blend.NoEmpty : Blend V → Prop
  | .nil => True
  | .cons _ x l => x.NoEmpty ∧ l.NoEmpty
def Splits.NoEmpty : Splits V → Prop
  | .nil => True
  | .cons _ x l => x.NoEmpty ∧ l.NoEmpty
end

/-- The first of the options that is given. -/
def firstGiven {α : Type} : List (Option α) → Option α
  | [] => none
  | some a :: _ => some a
  | none :: l => firstGiven l

/-- The value of the key `k` in the first dict that has it. -/
def firstKey (k : String) (l : List (Option (Dict V))) : Option V := firstGiven (l.map fun d => d.bind (· k))

end Verif.Meta
