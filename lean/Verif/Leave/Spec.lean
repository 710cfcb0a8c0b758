import Verif.Stream.History

/-!
# Leaving a loop early

`for batch in loader: ... break` drops the generators of the whole chain of datasets (CPython closes them at once); the next loop calls `iter` again. For the
loader without worker processes (savable_loader.py:851-863, `InnerIterator(super().__iter__())`) this starts new generators over the same objects: attributes are
kept, local variables of the generators are lost.

A function `leave : σ → σ` says which state this gives. The definitions for the dataset classes are in `Verif.Leave.Model`.
-/

namespace Verif.Stream

variable {σ α κ : Type}

/-- What happens in the life of a loader: a sample is delivered, the loop ends, the state is saved and restored in a new process (where a new loop is begun), the loop is left by the user and a
new one is begun. -/
inductive Op (α : Type) where
  | item (a : α)
  | fin
  | resume
  | leave
deriving DecidableEq

/-- `D.Life leave ops s`: from the beginning `ops` happened, and then the state is `s`. -/
inductive Dataset.Life (D : Dataset σ α κ) (leave : σ → σ) : List (Op α) → σ → Prop where
  | init : D.Life leave [] D.init
  | item {ops s a s'} : D.Life leave ops s → Obs D.step s (.item a s') → D.Life leave (ops ++ [.item a]) s'
  | fin {ops s s'} : D.Life leave ops s → Obs D.step s (.fin s') → D.Life leave (ops ++ [.fin]) s'
  | resume {ops s} : D.Life leave ops s → D.Life leave (ops ++ [.resume]) (D.resume (D.save s))
  | leave {ops s} : D.Life leave ops s → D.Life leave (ops ++ [.leave]) (leave s)

/-- The same life, but no loop is left. -/
def noLeave (ops : List (Op α)) : List (Op α) := ops.filter fun | .leave => false | _ => true

/-- Moreover, without the ends of loops. -/
def noEnds (ops : List (Op α)) : List (Op α) := ops.filter fun | .leave => false | .fin => false | _ => true

/-- Leaving loops does not matter: whatever is observed with loops left early is also observed if no loop is left early (with the process resumed at the same
points), and what follows is the same. -/
def Dataset.LeavesExactly (D : Dataset σ α κ) (leave : σ → σ) : Prop :=
  ∀ ops t, D.Life leave ops t → ∃ s, D.Life leave (noLeave ops) s ∧ D.Equiv s t

/-- The same, except that ends of loops are not counted: a loop that is left after its last sample does not end. -/
def Dataset.LeavesUpToEnd (D : Dataset σ α κ) (leave : σ → σ) : Prop :=
  ∀ ops t, D.Life leave ops t → ∃ ops' s, D.Life leave ops' s ∧ noLeave ops' = ops' ∧ noEnds ops' = noEnds ops ∧ D.Equiv s t

/-- The samples delivered. -/
def Op.items : List (Op α) → List α
  | [] => []
  | .item a :: l => a :: Op.items l
  | _ :: l => Op.items l

end Verif.Stream
