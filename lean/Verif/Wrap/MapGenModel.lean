import Verif.Wrap.PackModel

/-!
# MapDataset with a generator function, IterMapDataset

Source: /repo src/megatron/energon/wrappers/map_dataset.py, iter_map_dataset.py.
-/

namespace Verif.Stream

variable {σ κ C C' : Type}

/-- A generator function as `map_fn`: the samples it yields for a source sample before it ends, and how it ends
(`skip`: `SkipSample` or an exception accepted by the error handler). It sees its sample index. -/
abbrev GenFn (C C' : Type) := Nat → Smp C → List C' × FinalEnd

inductive GenCtl (C C' : Type) where
  /-- fresh generator -/
  | start
  /-- in `for sample in self.dataset` (line 138) -/
  | loop
  | got (a : Smp C)
  /-- inside the generator of the user function: `k` is the sample index, `j` the number of samples it has given, `rest`
  those it will give, `e` how it will end; `resumed`: in the part of lines 111-136, outside of the `try` -/
  | group (resumed : Bool) (k j : Nat) (key : List Key) (rest : List C') (e : FinalEnd)
  | done

/-- `gen`: `_generator_sample_keys` and `_generator_offsets` of this worker. -/
structure GenX (C C' : Type) where
  idx : Nat
  gen : Option (List Key × Nat)
  ctl : GenCtl C C'

/-- map_dataset.py:109-173 `__iter__` for a generator function; 175-224 save and restore; 237-264 `restore_sample`.

- On resume (lines 111-136) the user function is called with `_sample_index.current_idx`, which is one more than
  the index it had before (`ctx` has increased it), and the exceptions of the generator are not handled.
- At the end of a group by `SkipSample` or a handled exception (lines 168-173) the saved key and offset stay.
-/
def mapGenW (D : Dataset σ (Smp C) κ) (f : GenFn C C') (stateless : Bool) :
    Wrapper Unit (Smp C) (Smp C') (GenX C C') (Nat × Option (List Key × Nat)) :=
  { init := ⟨0, none, .start⟩
    act := fun x =>
      match x.ctl with
      | .start =>
        match x.gen with
        | none => .tau { x with ctl := .loop }
        | some (key, off) =>
          match D.restoreSample key with
          | none => .raise
          | some a =>
            .tau ⟨x.idx, some (key, 0), .group true x.idx off a.key ((f x.idx a).1.drop off) (f x.idx a).2⟩
      | .loop => .pull () (fun a => { x with ctl := .got a }) { x with ctl := .done }
      | .got a => .tau ⟨x.idx + 1, some (a.key, 0), .group false x.idx 0 a.key (f x.idx a).1 (f x.idx a).2⟩
      | .group res k j key (c :: cs) e =>
        .emit (Smp.addKey [.str "MapDataset", .num k, .num j] ⟨c, key⟩)
          ⟨x.idx, x.gen.map fun g => (g.1, j + 1), .group res k (j + 1) key cs e⟩
      | .group res _ _ _ [] e =>
        match e with
        | .done => .tau ⟨x.idx, none, .loop⟩
        | .skip => if res then .raise else .tau { x with ctl := .loop }
        | .fatal => .raise
      | .done => .halt { x with ctl := .start }
    save := fun x => (x.idx, x.gen)
    resume := fun k => ⟨k.1, k.2, .start⟩
    reset := fun _ => ⟨0, none, .start⟩
    restoreSample := fun key =>
      match key with
      | .str id :: .num k :: .num j :: rest =>
        if id = "MapDataset" && stateless then
          match D.restoreSample rest with
          | some a => (f k a).1[j]?.map fun c => Smp.addKey [.str "MapDataset", .num k, .num j] ⟨c, a.key⟩
          | none => none
        else none
      | _ => none
    hasSamples := D.hasSamples }

/-- map_dataset.py:59-284 `MapDataset` for a generator function. -/
def mapGenD (D : Dataset σ (Smp C) κ) (f : GenFn C C') (stateless : Bool) :
    Dataset (σ × GenX C C') (Smp C') (κ × (Nat × Option (List Key × Nat))) := wrap D (mapGenW D f stateless)

end Verif.Stream
