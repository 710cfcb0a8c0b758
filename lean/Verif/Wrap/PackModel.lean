import Verif.Wrap.BatchModel

/-!
# PackingDataset

Source: /repo src/megatron/energon/wrappers/packing_dataset.py.
-/

namespace Verif.Stream

variable {σ κ C C' : Type}

/-- Result of the user's pre packer: the packs, or `none` for one of `SYSTEM_EXCEPTIONS` (or a raising error handler).
`SkipSample` and handled exceptions give no packs (lines 190-195). The argument is the sample index. -/
abbrev PreFn (C : Type) := Nat → List (Smp C) → Option (List (List (Smp C)))

/-- How the final packer ends. -/
inductive FinalEnd where
  | done
  /-- `SkipSample` or a handled exception -/
  | skip
  | fatal
deriving DecidableEq

/-- The user's final packer, plain or generator function: the samples it gives before it ends, and how it ends. A plain
function gives `([c], .done)`, `([], .skip)` or `([], .fatal)`. -/
abbrev FinalFn (C C' : Type) := Nat → List (Smp C) → List C' × FinalEnd

/-- A plain function as final packer. -/
def plainFinal (f : BatchFn C C') : FinalFn C C' := fun i l =>
  match f i l with
  | .ok c => ([c], .done)
  | .skip => ([], .skip)
  | .fatal => ([], .fatal)

inductive PackCtl (C' : Type) where
  /-- the test of the inner `while`, with `pre_pack_round` (`check 0`: also the fresh generator) -/
  | check (round : Nat)
  /-- `_fill_reading_buffer` -/
  | fill (round : Nat)
  /-- lines 250-256: the source has ended -/
  | ended
  /-- `next_final_pack`; `last`: called from the last loop -/
  | final (last : Bool)
  /-- inside `next_final_pack`: what the final packer still gives; `keys` are the keys of the samples of the pack -/
  | sub (last : Bool) (idx j : Nat) (keys : List (List Key)) (rest : List C') (e : FinalEnd)
  /-- the test of the last `while` loop -/
  | drain
  /-- `restore_sample` of a buffered sample has raised in `worker_start` -/
  | dead

/-- `rb`, `pb`: `_reading_buffer`, `_pre_packing_buffer` (samples; the keys in the buffers are those of the samples);
`lens`: `_pre_packing_lengths`; `pidx`, `fidx`: the two sample indexes. -/
structure PackX (C C' : Type) where
  rb : List (Smp C)
  pb : List (Smp C)
  lens : List Nat
  pidx : Nat
  fidx : Nat
  ctl : PackCtl C'

/-- packing_dataset.py:174-203 `next_pre_pack` -/
def prePack (pre : PreFn C) (x : PackX C C') (next : PackCtl C') : Act Unit (Smp C) (Smp C') (PackX C C') :=
  if x.pb ≠ [] then .raise
  else if x.rb = [] then .tau { x with ctl := next }
  else
    match pre x.pidx x.rb with
    | some packs =>
      .tau { x with rb := [], pb := packs.flatten, lens := packs.map (·.length), pidx := x.pidx + 1, ctl := next }
    | none => .raise

/-- The key of a pack: packing_dataset.py:222-235. -/
def packKey (gen : Bool) (idx j : Nat) (keys : List (List Key)) : List Key :=
  .str "PackingDataset" :: .num idx :: ((if gen then [.num j] else []) ++ keys.map .tup)

/-- packing_dataset.py:165-274 `__iter__`, 276-321 save and restore (of this worker's state; `merge_states` of a missing
state is `packResumeNone`), 334-363 `restore_sample`. `gen`: the final packer is a generator function. (The `RuntimeError` of line 264 is raised after, here before, the eleventh
call of `next_pre_pack`.) -/
def packW (D : Dataset σ (Smp C) κ) (size : Nat) (pre : PreFn C) (gen : Bool) (f : FinalFn C C') :
    Wrapper Unit (Smp C) (Smp C') (PackX C C') (List (List Key) × List (List Key) × List Nat × Nat × Nat) :=
  { init := ⟨[], [], [], 0, 0, .check 0⟩
    act := fun x =>
      match x.ctl with
      | .check r => .tau { x with ctl := if x.lens = [] then .fill r else .final false }
      | .fill r =>
        if x.rb.length + x.pb.length < size then
          .pull () (fun a => { x with rb := x.rb ++ [a] }) { x with ctl := .ended }
        else if x.pb ≠ [] ∨ x.rb.length ≠ size then .raise
        else if 10 < r + 1 then .raise
        else prePack pre x (.check (r + 1))
      | .ended => prePack pre x .drain
      | .final last =>
        match x.lens with
        | [] => .raise
        | l :: ls =>
          let pack := x.pb.take l
          let (outs, e) := f x.fidx pack
          .tau { x with pb := x.pb.drop l, lens := ls, fidx := x.fidx + 1,
                        ctl := .sub last x.fidx 0 (pack.map (·.key)) outs e }
      | .sub last idx j keys (c :: cs) e =>
        .emit ⟨c, packKey gen idx j keys⟩ { x with ctl := .sub last idx (j + 1) keys cs e }
      | .sub last _ _ _ [] e =>
        if e = .fatal then .raise else .tau { x with ctl := if last then .drain else .check 0 }
      | .drain => if x.lens = [] then .halt { x with ctl := .check 0 } else .tau { x with ctl := .final true }
      | .dead => .raise
    save := fun x => (x.rb.map (·.key), x.pb.map (·.key), x.lens, x.pidx, x.fidx)
    resume := fun k =>
      match k.1.mapM D.restoreSample, k.2.1.mapM D.restoreSample with
      | some rb, some pb => ⟨rb, pb, k.2.2.1, k.2.2.2.1, k.2.2.2.2, .check 0⟩
      | _, _ => ⟨[], [], k.2.2.1, k.2.2.2.1, k.2.2.2.2, .dead⟩
    reset := fun _ => ⟨[], [], [], 0, 0, .check 0⟩
    -- packing_dataset.py:334-363, for `final_packer_stateless=True` (otherwise `restore_sample` raises, see `Pipeline.onlyIf`)
    restoreSample := fun key =>
      match gen, key with
      | false, .str id :: .num idx :: rest =>
        if id = "PackingDataset" then
          match (keyTuples rest).bind fun ks => ks.mapM D.restoreSample with
          | some pack => (f idx pack).1.head?.map fun c => ⟨c, key⟩
          | none => none
        else none
      | true, .str id :: .num idx :: .num j :: rest =>
        if id = "PackingDataset" then
          match (keyTuples rest).bind fun ks => ks.mapM D.restoreSample with
          | some pack => (f idx pack).1[j]?.map fun c => ⟨c, key⟩
          | none => none
        else none
      | _, _ => none
    hasSamples := D.hasSamples }

/-- packing_dataset.py:60-387 `PackingDataset`. -/
def packD (D : Dataset σ (Smp C) κ) (size : Nat) (pre : PreFn C) (gen : Bool) (f : FinalFn C C') :
    Dataset (σ × PackX C C') (Smp C') (κ × (List (List Key) × List (List Key) × List Nat × Nat × Nat)) :=
  wrap D (packW D size pre gen f)

/-- packing_dataset.py:288-305 `merge_states`, 307-324: the wrapper's part of the state a worker has after
`restore_state` of a merged state in which its own state is missing (`None`). -/
def packResumeNone : PackX C C' := ⟨[], [], [0, 0], 0, 0, .check 0⟩

end Verif.Stream
