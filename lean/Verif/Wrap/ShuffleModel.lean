import Verif.Stream.Model

/-!
# ShuffleBufferDataset

Source: /repo src/megatron/energon/wrappers/shuffle_buffer_dataset.py, buffer.py, rng.py:48-117.
-/

namespace Verif.Stream

variable {σ κ C ρ : Type}

/-- rng.py:48-117 `WorkerRng`: an arbitrary deterministic generator with state `ρ`, started with the worker's seed
(`seed`). `below g n` is `torch.randint(0, n)` with `0 < n`: a number below `n` and the next state; `choice g n` is
`torch.multinomial` over `n` positive probabilities (the probabilities are fixed, so an arbitrary function of the
state). `save_state` saves the complete state and `restore_state` of a saved state brings back exactly this state
(rng.py:61-80, 104-117; `save_state` uses the property `rng`, so a pending restored state is not lost). -/
structure Rng (ρ : Type) where
  seed : ρ
  below : ρ → Nat → Nat × ρ
  below_lt : ∀ g n, 0 < n → (below g n).1 < n
  choice : ρ → Nat → Nat × ρ
  choice_lt : ∀ g n, 0 < n → (choice g n).1 < n

/-- rng.py:83-87 `choice_idx`: with one entry no random number is used. -/
def Rng.choiceIdx (R : Rng ρ) (g : ρ) (n : Nat) : Nat × ρ := if n = 1 then (0, g) else R.choice g n

inductive ShufCtl where
  /-- in the first `while` loop (also: the fresh generator) -/
  | fill
  /-- in the second `while` loop -/
  | drain
  /-- `restore_sample` of a buffered sample has raised in `worker_start` -/
  | dead
deriving DecidableEq

/-- The buffer (`_buffer`; `_restore_keys` is always the list of its keys: buffer.py:75-92), the generator, and
the control point. -/
structure ShufX (ρ C : Type) where
  buf : List (Smp C)
  rng : ρ
  ctl : ShufCtl

/-- shuffle_buffer_dataset.py:64-66, 72-74: pop a random element and yield it. `torch.randint(0, 0)` raises. -/
def shufPop (R : Rng ρ) (x : ShufX ρ C) : Act Unit (Smp C) (Smp C) (ShufX ρ C) :=
  let (i, g) := R.below x.rng x.buf.length
  match x.buf[i]? with
  | some a => .emit a { x with buf := x.buf.eraseIdx i, rng := g }
  | none => .raise

/-- shuffle_buffer_dataset.py:60-74 `__iter__`; buffer.py:59-70 `worker_start` (restoring the buffer from the saved
keys happens when the generator is started; the model does it in `resume`, as `restore_sample` does not
change the state of the source); save/restore: shuffle_buffer_dataset.py:76-104, buffer.py:117-139. -/
def shuffleW (D : Dataset σ (Smp C) κ) (R : Rng ρ) (size : Nat) :
    Wrapper Unit (Smp C) (Smp C) (ShufX ρ C) (List (List Key) × ρ) :=
  { init := ⟨[], R.seed, .fill⟩
    act := fun x =>
      match x.ctl with
      | .fill =>
        if size ≤ x.buf.length then shufPop R x
        else .pull () (fun a => { x with buf := x.buf ++ [a] }) { x with ctl := .drain }
      | .drain => if 0 < x.buf.length then shufPop R x else .halt { x with ctl := .fill }
      | .dead => .raise
    save := fun x => (x.buf.map (·.key), x.rng)
    resume := fun k =>
      match k.1.mapM D.restoreSample with
      | some buf => ⟨buf, k.2, .fill⟩
      | none => ⟨[], k.2, .dead⟩
    -- not faithful if the generator was restored but not used yet (rng.py:111-113); no theorem uses it
    reset := fun x => ⟨[], x.rng, .fill⟩
    restoreSample := D.restoreSample
    hasSamples := D.hasSamples }

/-- shuffle_buffer_dataset.py:36-115 `ShuffleBufferDataset`. -/
def shuffleD (D : Dataset σ (Smp C) κ) (R : Rng ρ) (size : Nat) :
    Dataset (σ × ShufX ρ C) (Smp C) (κ × (List (List Key) × ρ)) := wrap D (shuffleW D R size)

end Verif.Stream
