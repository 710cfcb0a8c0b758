/-!
# Datasets as state machines

Source: /repo src/megatron/energon/flavors/base_dataset.py:300-423 (`SavableDataset`, restore keys),
/repo src/megatron/energon/wrappers/base.py:52-124 (`BaseSingleWrapperDataset`).

A Python dataset object together with its (suspended) generator is one *state* `s : σ`. Executing
`next(it)` is a sequence of small steps. `iter(ds)` of a Python generator function executes no code
until the first `next`, so "a fresh generator" is the control point at the beginning of `__iter__`.
-/

namespace Verif.Stream

/-- base_dataset.py:386-423: a restore key is a tuple of strings, integers and nested tuples. -/
inductive Key where
  | str (s : String)
  | num (n : Nat)
  | tup (l : List Key)
deriving Repr

mutual
/-- Equality of keys is decidable (used only to evaluate examples). -/
def Key.decEq : (a b : Key) → Decidable (a = b)
  | .str s, .str t => if h : s = t then isTrue (by rw [h]) else isFalse (by intro e; cases e; exact h rfl)
  | .num s, .num t => if h : s = t then isTrue (by rw [h]) else isFalse (by intro e; cases e; exact h rfl)
  | .tup s, .tup t =>
    match Key.decEqList s t with
    | isTrue h => isTrue (by rw [h])
    | isFalse h => isFalse (by intro e; cases e; exact h rfl)
  | .str _, .num _ => isFalse (by intro e; cases e)
  | .str _, .tup _ => isFalse (by intro e; cases e)
  | .num _, .str _ => isFalse (by intro e; cases e)
  | .num _, .tup _ => isFalse (by intro e; cases e)
  | .tup _, .str _ => isFalse (by intro e; cases e)
  | .tup _, .num _ => isFalse (by intro e; cases e)
/-- see `Key.decEq` -/
def Key.decEqList : (a b : List Key) → Decidable (a = b)
  | [], [] => isTrue rfl
  | [], _ :: _ => isFalse (by intro e; cases e)
  | _ :: _, [] => isFalse (by intro e; cases e)
  | a :: l, b :: m =>
    match Key.decEq a b, Key.decEqList l m with
    | isTrue h, isTrue h' => isTrue (by rw [h, h'])
    | isFalse h, _ => isFalse (by intro e; cases e; exact h rfl)
    | _, isFalse h => isFalse (by intro e; cases e; exact h rfl)
end

instance : DecidableEq Key := Key.decEq

/-- A sample: all user visible data (`content`) and its `__restore_key__`
(base_dataset.py:107-124). -/
structure Smp (C : Type) where
  content : C
  key : List Key
deriving DecidableEq, Repr

/-- base_dataset.py:386-403 `add_sample_restore_key(sample, *key, src=self)`: prepends the class name
and the given entries. (`pre` contains the class name.) Samples without a restore key are not
modelled. -/
def Smp.addKey {C : Type} (pre : List Key) (a : Smp C) : Smp C := { a with key := pre ++ a.key }

/-- The result of one small step of a generator. -/
inductive Step (σ α : Type) where
  /-- `yield a`; `s` is the state suspended at this yield -/
  | yield (a : α) (s : σ)
  /-- internal progress, nothing observable yet -/
  | skip (s : σ)
  /-- the generator returns (`StopIteration`); `s` is the object with a fresh generator -/
  | stop (s : σ)
  /-- an exception leaves the generator -/
  | raise

/-- A savable dataset (base_dataset.py:245-381), for one fixed worker of one rank (states are saved and
restored per worker). `resume k` is: a freshly constructed object, `restore_state` with the state `k`
of this worker, `iter`. `reset` is `restore_state(None)` on the live object followed by `iter`.
`restoreSample` is `restore_sample` (`none` = it raises). `hasSamples` is `worker_has_samples()`. -/
structure Dataset (σ α κ : Type) where
  init : σ
  step : σ → Step σ α
  save : σ → κ
  resume : κ → σ
  reset : σ → σ
  restoreSample : List Key → Option α
  hasSamples : Bool

/-- What a wrapper does next, given its own attributes and control point `x : X`. `ι` names the inner
datasets. -/
inductive Act (ι α β X : Type) where
  /-- `yield b` -/
  | emit (b : β) (x : X)
  /-- the generator of the wrapper returns; `x` are the attributes with a fresh generator -/
  | halt (x : X)
  /-- internal progress -/
  | tau (x : X)
  /-- `next(it)` on the iterator of inner dataset `i` -/
  | pull (i : ι) (onItem : α → X) (onFin : X)
  /-- `dataset.restore_state(None)` on the inner dataset(s) -/
  | reset (x : X)
  /-- an exception -/
  | raise

/-- The part of a wrapper that is not the inner dataset. -/
structure Wrapper (ι α β X KX : Type) where
  init : X
  act : X → Act ι α β X
  save : X → KX
  resume : KX → X
  reset : X → X
  restoreSample : List Key → Option β
  hasSamples : Bool

/-- The inner side of a wrapper: `pull i` is a small step of the iterator of inner dataset `i`. -/
structure Source (ι S α : Type) where
  pull : ι → S → Step S α
  reset : S → S

/-- One inner dataset (wrappers/base.py:77 `BaseSingleWrapperDataset`). -/
def Source.single {σ α κ : Type} (D : Dataset σ α κ) : Source Unit σ α :=
  { pull := fun _ s => D.step s, reset := D.reset }

/-- Apply a function to the successor state. -/
def Step.mapS {σ τ α : Type} (f : σ → τ) : Step σ α → Step τ α
  | .yield a s => .yield a (f s)
  | .skip s => .skip (f s)
  | .stop s => .stop (f s)
  | .raise => .raise

/-- Replace the state of inner dataset `i`. -/
def upd {σ : Type} (S : Nat → σ) (i : Nat) (s : σ) : Nat → σ := fun j => if j = i then s else S j

/-- Several inner datasets, numbered (blend_dataset.py, concat_dataset.py); the model uses one type of
states for all of them. -/
def Source.multi {σ α κ : Type} (D : Nat → Dataset σ α κ) : Source Nat (Nat → σ) α :=
  { pull := fun i S => ((D i).step (S i)).mapS (upd S i)
    reset := fun S i => (D i).reset (S i) }

/-- One small step of a wrapper. An exception of the inner dataset leaves the wrapper as well (no wrapper
has a handler around `next` of its source). -/
def wrapStep {ι S α β X KX : Type} (src : Source ι S α) (W : Wrapper ι α β X KX) :
    S × X → Step (S × X) β
  | (s, x) =>
    match W.act x with
    | .emit b x' => .yield b (s, x')
    | .halt x' => .stop (s, x')
    | .tau x' => .skip (s, x')
    | .reset x' => .skip (src.reset s, x')
    | .raise => .raise
    | .pull i f g =>
      match src.pull i s with
      | .yield a s' => .skip (s', f a)
      | .skip s' => .skip (s', x)
      | .stop s' => .skip (s', g)
      | .raise => .raise

/-- wrappers/base.py:77-124: a wrapper around one dataset saves the inner state and its own. -/
def wrap {σ α β κ X KX : Type} (D : Dataset σ α κ) (W : Wrapper Unit α β X KX) :
    Dataset (σ × X) β (κ × KX) :=
  { init := (D.init, W.init)
    step := wrapStep (Source.single D) W
    save := fun s => (D.save s.1, W.save s.2)
    resume := fun k => (D.resume k.1, W.resume k.2)
    reset := fun s => (D.reset s.1, W.reset s.2)
    restoreSample := W.restoreSample
    hasSamples := W.hasSamples }

/-- blend_dataset.py, concat_dataset.py: a wrapper around several datasets saves all their states. -/
def wrapMulti {σ α β κ X KX : Type} (D : Nat → Dataset σ α κ) (W : Wrapper Nat α β X KX) :
    Dataset ((Nat → σ) × X) β ((Nat → κ) × KX) :=
  { init := (fun i => (D i).init, W.init)
    step := wrapStep (Source.multi D) W
    save := fun s => (fun i => (D i).save (s.1 i), W.save s.2)
    resume := fun k => (fun i => (D i).resume (k.1 i), W.resume k.2)
    reset := fun s => (fun i => (D i).reset (s.1 i), W.reset s.2)
    restoreSample := W.restoreSample
    hasSamples := W.hasSamples }

end Verif.Stream
