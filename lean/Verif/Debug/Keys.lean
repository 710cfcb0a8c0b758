import Verif.Debug.Props

/-!
# Property C100: the keys in the debug logs

Source: /repo src/megatron/energon/wrappers/log_sample_dataset.py:18-51 (`default_get_keys`), savable_loader.py:817-833, 1135-1151, and how
tools/analyze_debug.py:368-370 counts them. A delivered value is modelled as far as `default_get_keys` looks at it. Simplification: the keys of dicts are
strings.
-/

namespace Verif.Debug

/-- Python values -/
inductive PyVal where
  | str (s : String)
  | list (l : List PyVal)
  | dict (d : List (String × PyVal))
  /-- an object with attributes, such as a dataclass -/
  | obj (attrs : List (String × PyVal))
  /-- anything else, not iterable -/
  | other

/-- `isinstance(k, str)` -/
def PyVal.isStr : PyVal → Bool
  | .str _ => true
  | _ => false

/-- `iter(v)`: a string gives its characters, a dict its keys; `none`: `TypeError` -/
def PyVal.items : PyVal → Option (List PyVal)
  | .str s => some (s.toList.map fun c => .str (String.singleton c))
  | .list l => some l
  | .dict d => some (d.map fun x => .str x.1)
  | .obj _ => none
  | .other => none

/-- `hasattr` and the attribute, lines 22-33: a list of strings -/
def attrKeys (name : String) : PyVal → Option PyVal
  | .obj attrs =>
    match attrs.lookup name with
    | some (.list l) => if l.all (·.isStr) then some (.list l) else none
    | _ => none
  | _ => none

/-- Lines 34-50, one of the three tests for a dict: not there or not all strings (`some none`), the value, or a `TypeError` (`none`) -/
def dictKeys (name : String) : PyVal → Option (Option PyVal)
  | .dict d =>
    match d.lookup name with
    | none => some none
    | some v => v.items.map fun l => if l.all (·.isStr) then some v else none
  | _ => some none

/-- Lines 34-51 -/
def anyDictKeys (v : PyVal) : List String → Option (Option PyVal)
  | [] => some none
  | n :: ns =>
    match dictKeys n v with
    | none => none
    | some (some r) => some (some r)
    | some none => anyDictKeys v ns

/-- Lines 22-51 for one batch -/
def batchKeys (v : PyVal) : Option (Option PyVal) :=
  match attrKeys "__key__" v with
  | some r => some (some r)
  | none =>
    match attrKeys "__keys__" v with
    | some r => some (some r)
    | none => anyDictKeys v ["__key__", "__keys__", "keys"]

/-- log_sample_dataset.py:18-51 `default_get_keys`; outer `none`: an exception -/
def defaultGetKeys : PyVal → Option (Option PyVal)
  | .list [] => none
  | .list (v :: _) => batchKeys v
  | v => batchKeys v

/-- What the tool counts for a logged value: `for log_key in log_keys` -/
def counted (v : PyVal) : Option (List PyVal) :=
  match defaultGetKeys v with
  | none => none
  | some none => some []
  | some (some r) => r.items

/-! ## Specification -/

/-- The keys of what was delivered: a sample has a key, a batch a list of keys, a list of samples or batches those of its elements. -/
inductive HasKeys : PyVal → List String → Prop where
  | sample (v : PyVal) (fields : List (String × PyVal)) (k : String) : v = .obj fields ∨ v = .dict fields → fields.lookup "__key__" = some (.str k) → HasKeys v [k]
  | batch (v : PyVal) (fields : List (String × PyVal)) (ks : List String) : v = .obj fields ∨ v = .dict fields →
      fields.lookup "__key__" = some (.list (ks.map .str)) → HasKeys v ks
  | nil : HasKeys (.list []) []
  | cons (v : PyVal) (l : List PyVal) (a b : List String) : HasKeys v a → HasKeys (.list l) b → HasKeys (.list (v :: l)) (a ++ b)

/-! ## What holds -/

theorem all_isStr (ks : List String) : (ks.map PyVal.str).all (·.isStr) = true := by
  induction ks with
  | nil => rfl
  | cons k ks ih => rw [List.map_cons, List.all_cons, ih]; rfl

/-- **C100** for a batch, object or dict, with a list of keys: all of them are logged and counted. -/
theorem C100_batch_partial {v : PyVal} {fields : List (String × PyVal)} {ks : List String} (hv : v = .obj fields ∨ v = .dict fields)
    (hk : fields.lookup "__key__" = some (.list (ks.map .str))) : counted v = some (ks.map .str) := by
  rcases hv with rfl | rfl
  · have h : attrKeys "__key__" (.obj fields) = some (.list (ks.map .str)) := by
      unfold attrKeys
      dsimp only
      rw [hk]
      dsimp only
      rw [if_pos (all_isStr ks)]
    unfold counted
    show (match batchKeys (.obj fields) with | none => none | some none => some [] | some (some r) => r.items) = _
    unfold batchKeys
    rw [h]
    rfl
  · have h : dictKeys "__key__" (.dict fields) = some (some (.list (ks.map .str))) := by
      unfold dictKeys
      dsimp only
      rw [hk]
      show some (if (ks.map PyVal.str).all (·.isStr) then _ else _) = _
      rw [if_pos (all_isStr ks)]
    unfold counted
    show (match batchKeys (.dict fields) with | none => none | some none => some [] | some (some r) => r.items) = _
    unfold batchKeys anyDictKeys
    rw [h]
    rfl

/-! ## What does not -/

/-- **C100 does not hold for single samples**: the key of a sample object (without batching) is not logged. -/
theorem C100_violated_sample {fields : List (String × PyVal)} {k : String} (hk : fields.lookup "__key__" = some (.str k)) (hks : fields.lookup "__keys__" = none) :
    counted (.obj fields) = some [] := by
  have h : attrKeys "__key__" (.obj fields) = none := by
    unfold attrKeys
    dsimp only
    rw [hk]
  have h' : attrKeys "__keys__" (.obj fields) = none := by
    unfold attrKeys
    dsimp only
    rw [hks]
  unfold counted
  show (match batchKeys (.obj fields) with | none => none | some none => some [] | some (some r) => r.items) = _
  unfold batchKeys
  rw [h, h']
  rfl

/-- **C100 does not hold for dicts**: of a sample that is a dict, the characters of its key are counted as keys. -/
theorem C100_violated_dict {fields : List (String × PyVal)} {k : String} (hk : fields.lookup "__key__" = some (.str k)) :
    counted (.dict fields) = some (k.toList.map fun c => .str (String.singleton c)) := by
  have h : dictKeys "__key__" (.dict fields) = some (some (.str k)) := by
    unfold dictKeys
    dsimp only
    rw [hk]
    show some (if (k.toList.map fun c => PyVal.str (String.singleton c)).all (·.isStr) then _ else _) = _
    rw [if_pos]
    rw [List.all_eq_true]
    intro x hx
    obtain ⟨c, _, rfl⟩ := List.mem_map.1 hx
    rfl
  unfold counted
  show (match batchKeys (.dict fields) with | none => none | some none => some [] | some (some r) => r.items) = _
  unfold batchKeys anyDictKeys
  rw [h]
  rfl

/-- **C100 does not hold for lists**: only the first element counts, and an empty list is an exception, with which the loader ends when logging is on. -/
theorem C100_violated_list : (∀ v l, counted (.list (v :: l)) = match batchKeys v with | none => none | some none => some [] | some (some r) => r.items)
    ∧ counted (.list []) = none := ⟨fun _ _ => rfl, rfl⟩

/-! ## Examples -/

def exBatch (ks : List String) : PyVal := .obj [("image", .other), ("__key__", .list (ks.map .str))]

example : HasKeys (exBatch ["a/1", "a/2"]) ["a/1", "a/2"] := .batch _ _ _ (Or.inl rfl) rfl
example : HasKeys (.list [exBatch ["a/1"], exBatch ["a/2"]]) ["a/1", "a/2"] :=
  .cons _ _ ["a/1"] ["a/2"] (.batch _ _ ["a/1"] (Or.inl rfl) rfl) (.cons _ _ ["a/2"] [] (.batch _ _ ["a/2"] (Or.inl rfl) rfl) .nil)
example : counted (exBatch ["a/1", "a/2"]) = some [.str "a/1", .str "a/2"] := C100_batch_partial (ks := ["a/1", "a/2"]) (Or.inl rfl) rfl
example : counted (.list [exBatch ["a/1"], exBatch ["a/2"]]) = some [.str "a/1"] := rfl
example : HasKeys (.dict [("__key__", .str "ab")]) ["ab"] := .sample _ _ _ (Or.inr rfl) rfl

end Verif.Debug
