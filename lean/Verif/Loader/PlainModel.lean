import Verif.Wrap.SimpleModel

/-! # `SimpleSavableDatasetWrapper`: the loader without worker processes -/

namespace Verif.Loader

open Verif.Stream

variable {σ κ C : Type}

/-- savable_loader.py:100-102: entries added to the restore key; `rank` is the global worker id of the process. -/
def plainKey (rank idx : Nat) : List Key := [.str "SimpleSavableDatasetWrapper", .num rank, .num idx]

/-- savable_loader.py:124-137 `restore_sample` -/
def plainRestore (D : Dataset σ (Smp C) κ) : List Key → Option (Smp C)
  | .str t :: .num rank :: .num idx :: k =>
    if t = "SimpleSavableDatasetWrapper" then (D.restoreSample k).map (Smp.addKey (plainKey rank idx)) else none
  | _ => none

/-- savable_loader.py:63-146 `SimpleSavableDatasetWrapper`. `_sample_index` is neither saved nor restored nor reset (113-121). -/
def plainD (D : Dataset σ (Smp C) κ) (rank : Nat) : Dataset (σ × LoopX (Smp C)) (Smp C) (κ × Unit) :=
  let W := loopW (fun n a => .out (a.addKey (plainKey rank n))) (plainRestore D) D.hasSamples
  wrap D
    { init := W.init, act := W.act, save := fun _ => (), resume := fun _ => ⟨0, .loop⟩,
      reset := fun x => ⟨x.idx, .loop⟩, restoreSample := W.restoreSample, hasSamples := W.hasSamples }

end Verif.Loader
