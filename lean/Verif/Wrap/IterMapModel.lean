import Verif.Wrap.PackModel

/-!
# IterMapDataset

Source: /repo src/megatron/energon/wrappers/iter_map_dataset.py.
-/

namespace Verif.Stream

variable {σ κ C C' : Type}

/-- A stateless `iter_map_fn`: `def fn(it): for a in it: yield ...`, i.e. for each sample of the iterator it yields some samples
(each may depend on the sample index that is active in this `next`), and then goes on (`done`) or raises (`skip`: an
exception that the error handler accepts). It ends when the iterator ends. Functions that aggregate several samples are not
modelled. -/
abbrev IterFn (C C' : Type) := Smp C → List (Nat → C') × FinalEnd

inductive IterCtl (C' : Type) where
  /-- the head of `while True` (line 126; also: the fresh generator) -/
  | begin
  /-- `next` of the user's generator with sample index `n`, which calls `next(ds_iter)` -/
  | pulling (n : Nat)
  /-- `next` of the user's generator with sample index `n`, still working on a sample -/
  | run (n : Nat) (rest : List (Nat → C')) (e : FinalEnd)
  /-- suspended at the yield of line 130 -/
  | emitted (rest : List (Nat → C')) (e : FinalEnd)
  | done

/-- `idx`: the `SampleIndex`; `keys`, `it`: the local variables `sample_restore_keys`, `iter_idx`. -/
structure IterX (C' : Type) where
  idx : Nat
  keys : List (List Key)
  it : Nat
  ctl : IterCtl C'

/-- set_sample_restore_key(sample, sample_idx, iter_idx, *sample_restore_keys) -/
def iterKey (n it : Nat) (keys : List (List Key)) : List Key :=
  .str "IterMapDataset" :: .num n :: .num it :: keys.map .tup

/-- iter_map_dataset.py:178-211: the output number `j` of `iter_map_fn` over the restored samples. -/
def iterNth (restore : List Key → Option (Smp C)) (g : IterFn C C') : Nat → List (List Key) → Option (Nat → C')
  | _, [] => none
  | j, k :: ks =>
    match restore k with
    | none => none
    | some a =>
      if j < (g a).1.length then (g a).1[j]?
      else if (g a).2 = .done then iterNth restore g (j - (g a).1.length) ks
      else none

/-- iter_map_dataset.py:105-144 `__iter__`, wrappers/base.py:172-188 `iter_ctx` (each `next` of the user's generator uses up
a sample index, also if it raises or ends), 146-171 save and restore. `sample_restore_keys` is emptied after each yield, so
the second and further samples made of one source sample get no inner restore key. -/
def iterMapW (D : Dataset σ (Smp C) κ) (g : IterFn C C') (stateless : Bool) :
    Wrapper Unit (Smp C) (Smp C') (IterX C') Nat :=
  { init := ⟨0, [], 0, .begin⟩
    act := fun x =>
      match x.ctl with
      | .begin => .tau ⟨x.idx + 1, x.keys, 0, .pulling x.idx⟩
      | .pulling n =>
        .pull () (fun a => ⟨x.idx, x.keys ++ [a.key], 0, .run n (g a).1 (g a).2⟩) { x with ctl := .done }
      | .run n (c :: cs) e => .emit ⟨c n, iterKey n x.it x.keys⟩ { x with ctl := .emitted cs e }
      | .run n [] e =>
        match e with
        | .done => .tau { x with ctl := .pulling n }
        | .skip => .tau { x with ctl := .begin }
        | .fatal => .raise
      | .emitted cs e => .tau ⟨x.idx + 1, [], x.it + 1, .run x.idx cs e⟩
      | .done => .halt ⟨x.idx, [], 0, .begin⟩
    save := fun x => x.idx
    resume := fun n => ⟨n, [], 0, .begin⟩
    reset := fun _ => ⟨0, [], 0, .begin⟩
    restoreSample := fun key =>
      match key with
      | .str id :: .num n :: .num j :: rest =>
        if id = "IterMapDataset" && stateless then
          match keyTuples rest with
          | some ks => (iterNth D.restoreSample g j ks).map fun c => ⟨c n, key⟩
          | none => none
        else none
      | _ => none
    hasSamples := D.hasSamples }

/-- iter_map_dataset.py:47-233 `IterMapDataset`. -/
def iterMapD (D : Dataset σ (Smp C) κ) (g : IterFn C C') (stateless : Bool) :
    Dataset (σ × IterX C') (Smp C') (κ × Nat) := wrap D (iterMapW D g stateless)

end Verif.Stream
