/-!
# Batching samples: padding and stacking

Source: /repo src/megatron/energon/task_encoder/base.py:61-104 (`generic_batch`, `batch_pad_stack`, `batch_list`), 278-334 (`_batch`).

A tensor has a shape, a type of its elements (`dtype`) and a value at each index; indices outside of the shape do not matter. Writing a value into
a tensor converts it to the type of the tensor (`conv`).
-/

namespace Verif.Task

/-- A tensor -/
structure Tensor (T α : Type) where
  dtype : T
  shape : List Nat
  get : List Nat → α

/-- Types of elements: their zero, and the conversion when a value is written into a tensor of the type -/
structure DTypes (T α : Type) where
  zero : α
  conv : T → α → α

/-- An index lies in a shape: the same number of dimensions, each entry below the size. -/
def InShape : List Nat → List Nat → Prop
  | [], [] => True
  | i :: is, n :: ns => i < n ∧ InShape is ns
  | _, _ => False

instance decInShape : (is ns : List Nat) → Decidable (InShape is ns)
  | [], [] => isTrue trivial
  | i :: is, n :: ns => by
    unfold InShape
    exact @instDecidableAnd _ _ _ (decInShape is ns)
  | [], _ :: _ => isFalse (by simp [InShape])
  | _ :: _, [] => isFalse (by simp [InShape])

/-- Elementwise maximum -/
def maxShape : List Nat → List Nat → List Nat
  | a :: l, b :: m => max a b :: maxShape l m
  | _, _ => []

variable {T α : Type}

/-- Line 94: `[max(b.shape[dim] for b in batch) for dim in range(batch[0].ndim)]` (all with the same number of dimensions) -/
def maxSize (first : Tensor T α) (rest : List (Tensor T α)) : List Nat :=
  rest.foldl (fun m b => maxShape m b.shape) first.shape

/-- Lines 96-97, the loop: element `i :: is` of the batch tensor after all the assignments `batch_tensor[i, :s1, :s2, ...] = b`. -/
def stackGet (P : DTypes T α) (dt : T) : List (Tensor T α) → List Nat → α
  | _, [] => P.zero
  | [], _ :: _ => P.zero
  | b :: _, 0 :: is => if InShape is b.shape then P.conv dt (b.get is) else P.zero
  | _ :: l, (i + 1) :: is => stackGet P dt l (i :: is)

/-- Lines 92-99 `batch_pad_stack`; `none`: an `IndexError` (no samples, or different numbers of dimensions). -/
def padStack (P : DTypes T α) : List (Tensor T α) → Option (Tensor T α)
  | [] => none
  | b :: l =>
    if l.all (fun c => c.shape.length == b.shape.length) then
      some ⟨b.dtype, (l.length + 1) :: maxSize b l, stackGet P b.dtype (b :: l)⟩
    else none

mutual
/-- A sample or a part of it: a tensor, a structure with fields (dict, dataclass, named tuple), or anything else -/
inductive Val (T α O : Type) where
  | tensor (t : Tensor T α)
  | struct (l : Fields T α O)
  | other (o : O)
inductive Fields (T α O : Type) where
  | nil
  | cons (k : String) (v : Val T α O) (l : Fields T α O)
end

mutual
/-- A batch -/
inductive BVal (T α O : Type) where
  | tensor (t : Tensor T α)
  | struct (l : BFields T α O)
  | list (l : List (Val T α O))
inductive BFields (T α O : Type) where
  | nil
  | cons (k : String) (v : BVal T α O) (l : BFields T α O)
end

variable {O : Type}

/-- `sample[key]`, `getattr(sample, field)` -/
def Fields.get : Fields T α O → String → Option (Val T α O)
  | .nil, _ => none
  | .cons k v l, x => if k = x then some v else l.get x

/-- A field of a value; `none`: an exception (`KeyError`, `AttributeError`, `TypeError`) -/
def Val.field : Val T α O → String → Option (Val T α O)
  | .struct l, x => l.get x
  | _, _ => none

/-- The tensor; `none`: an exception (no `shape`) -/
def Val.asTensor : Val T α O → Option (Tensor T α)
  | .tensor t => some t
  | _ => none

/-- All of them, or an exception -/
def collect {β γ : Type} (f : β → Option γ) : List β → Option (List γ)
  | [] => some []
  | b :: l =>
    match f b, collect f l with
    | some c, some m => some (c :: m)
    | _, _ => none

mutual
/-- Lines 61-84 `generic_batch` of `first :: rest`: what is done depends on the first one only. `comb`: what is done with tensors (`batch_pad_stack`;
wrappers/mix_batch_dataset.py:19-42 `generic_concat` is the same code with `concat_pad`). -/
def genericWith (comb : List (Tensor T α) → Option (Tensor T α)) : Val T α O → List (Val T α O) → Option (BVal T α O)
  | .tensor t, rest =>
    match collect Val.asTensor rest with
    | some ts => (comb (t :: ts)).map .tensor
    | none => none
  | .struct l, rest => (genericFields comb l rest).map .struct
  | .other o, rest => some (.list (.other o :: rest))
/-- Line 67: for each key of the first one -/
def genericFields (comb : List (Tensor T α) → Option (Tensor T α)) : Fields T α O → List (Val T α O) → Option (BFields T α O)
  | .nil, _ => some .nil
  | .cons k v l, rest =>
    match collect (fun x => x.field k) rest, genericFields comb l rest with
    | some vs, some fs =>
      match genericWith comb v vs with
      | some b => some (.cons k b fs)
      | none => none
    | _, _ => none
end

/-- Lines 61-84 `generic_batch` -/
abbrev genericBatch (P : DTypes T α) (v : Val T α O) (rest : List (Val T α O)) : Option (BVal T α O) := genericWith (padStack P) v rest

end Verif.Task
