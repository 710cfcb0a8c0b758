import Verif.Wrap.ShuffleModel

/-!
# BlendDataset, ConcatDataset

Source: /repo src/megatron/energon/wrappers/blend_dataset.py, concat_dataset.py.

The parts are numbered `0 .. n-1`. Simplification: all parts have the same type of states.
-/

namespace Verif.Stream

variable {σ κ C ρ : Type}

/-! ### BlendDataset -/

/-- blend_dataset.py:81-86: the parts that have samples for this worker, in order. -/
def blendActive (D : Nat → Dataset σ (Smp C) κ) (n : Nat) : List Nat :=
  (List.range n).filter fun i => (D i).hasSamples

inductive BlendCtl (C : Type) where
  /-- fresh generator -/
  | start
  /-- line 93 -/
  | draw
  /-- line 94: `next(dataset_iters[k])`, `k` is the position in the filtered list -/
  | pulling (k : Nat)
  | got (a : Smp C) (k : Nat)

structure BlendX (ρ C : Type) where
  rng : ρ
  ctl : BlendCtl C

/-- blend_dataset.py:79-95 `__iter__` and `_repeat` (74-76: when a pass of a part ends, the next one is started in
the same `next`), 97-143 save and restore. The key of a sample gets the position in the *filtered* list (line 95), but
`restore_sample` (147-156) takes it as position in the list of all parts. `probs` is fixed by the weights of
the filtered parts, so `choice_idx` is the generator's `choiceIdx` for this number of parts. -/
def blendW (D : Nat → Dataset σ (Smp C) κ) (n : Nat) (R : Rng ρ) :
    Wrapper Nat (Smp C) (Smp C) (BlendX ρ C) ρ :=
  { init := ⟨R.seed, .start⟩
    act := fun x =>
      match x.ctl with
      | .start => if (blendActive D n).isEmpty then .raise else .tau ⟨x.rng, .draw⟩
      | .draw =>
        let (k, g) := R.choiceIdx x.rng (blendActive D n).length
        .tau ⟨g, .pulling k⟩
      | .pulling k =>
        match (blendActive D n)[k]? with
        | some i => .pull i (fun a => ⟨x.rng, .got a k⟩) x
        | none => .raise
      | .got a k => .emit (a.addKey [.str "BlendDataset", .num k]) ⟨x.rng, .draw⟩
    save := fun x => x.rng
    resume := fun g => ⟨g, .start⟩
    -- see `shuffleW`
    reset := fun x => ⟨x.rng, .start⟩
    restoreSample := fun key =>
      match key with
      | .str id :: .num k :: rest =>
        if id = "BlendDataset" ∧ k < n then
          ((D k).restoreSample rest).map (·.addKey [.str "BlendDataset", .num k])
        else none
      | _ => none
    hasSamples := (List.range n).any fun i => (D i).hasSamples }

/-- blend_dataset.py:38-159 `BlendDataset` of the parts `D 0, ..., D (n-1)`. -/
def blendD (D : Nat → Dataset σ (Smp C) κ) (n : Nat) (R : Rng ρ) :
    Dataset ((Nat → σ) × BlendX ρ C) (Smp C) ((Nat → κ) × ρ) := wrapMulti D (blendW D n R)

/-! ### ConcatDataset -/

inductive ConcatX (C : Type) where
  /-- in the loop over part `i` (`part 0`: also the fresh generator) -/
  | part (i : Nat)
  | got (a : Smp C) (i : Nat)

/-- concat_dataset.py:53-60 `__iter__`, 59-112. Only the states of the parts are saved, not which part is active. -/
def concatW (D : Nat → Dataset σ (Smp C) κ) (n : Nat) : Wrapper Nat (Smp C) (Smp C) (ConcatX C) Unit :=
  { init := .part 0
    act := fun x =>
      match x with
      | .part i => if i < n then .pull i (fun a => .got a i) (.part (i + 1)) else .halt (.part 0)
      | .got a i => .emit (a.addKey [.str "ConcatDataset", .num i]) (.part i)
    save := fun _ => ()
    resume := fun _ => .part 0
    reset := fun _ => .part 0
    restoreSample := fun key =>
      match key with
      | .str id :: .num k :: rest =>
        if id = "ConcatDataset" ∧ k < n then
          ((D k).restoreSample rest).map (·.addKey [.str "ConcatDataset", .num k])
        else none
      | _ => none
    hasSamples := (List.range n).any fun i => (D i).hasSamples }

/-- concat_dataset.py:31-117 `ConcatDataset`. -/
def concatD (D : Nat → Dataset σ (Smp C) κ) (n : Nat) :
    Dataset ((Nat → σ) × ConcatX C) (Smp C) ((Nat → κ) × Unit) := wrapMulti D (concatW D n)

end Verif.Stream
