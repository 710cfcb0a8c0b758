import Verif.Wrap.SimpleProps

/-!
# Decoding samples

Source: /repo src/megatron/energon/flavors/webdataset/default_decoder_webdataset.py, default_generic_webdataset.py:107-108, base_webdataset.py:157-170, error_handler.py. What the decoder of `webdataset` does with a file is not modelled: it is any function that
returns the decoded sample or raises.
-/

namespace Verif.Decode

open Verif.Stream

variable {σ κ B C : Type}

/-- What can be raised. -/
inductive Exc where
  /-- `SkipSample` -/
  | skip
  /-- one of `SYSTEM_EXCEPTIONS` (errors.py:76-88) -/
  | system
  | other (message : String)
  deriving DecidableEq

/-- A `DefaultDecoderWebdatasetFactory` (default_decoder_webdataset.py:41-83) for a class of samples `C` and raw samples `B` (dicts, decoded or not). -/
structure Factory (B C : Type) where
  /-- lines 50, 68-76 -/
  autoDecode : Bool
  /-- lines 47, 72 -/
  ignoreDecoderErrors : Bool
  /-- `webdataset.autodecode.Decoder` -/
  decoder : B → Except Exc B
  /-- the sample loader (or field map) and the constructor of the sample class: default_generic_webdataset.py:107-108 -/
  construct : B → Except Exc C
  /-- `handler` (base_webdataset.py:72): whether it returns when called with this exception -/
  handlerReturns : Exc → Bool

/-- structs.py:52-56 `reraise_exception`, the default handler: never returns. -/
def reraise : Exc → Bool := fun _ => false

/-- default_decoder_webdataset.py:85-88 `_decode_error_handler`: nobody calls it. -/
def Factory.decodeErrorHandler (F : Factory B C) (e : Exc) : Except Exc Bool := if F.ignoreDecoderErrors then .ok true else .error e

/-- default_decoder_webdataset.py:104-107 `load_sample` -/
def Factory.loadSample (F : Factory B C) (b : B) : Except Exc C :=
  match if F.autoDecode then F.decoder b else .ok b with
  | .error e => .error e
  | .ok b => F.construct b

/-- base_webdataset.py:172-175 `_load_sample_raw` as function of the `MapDataset`, with its error handling (map_dataset.py:138-178, error_handler.py:19-23): `SkipSample` drops the sample, system exceptions are raised again, others are given to the handler. -/
def Factory.mapFn (F : Factory B C) : MapFn B C := fun _ a =>
  match F.loadSample a.content with
  | .ok c => .ok c
  | .error .skip => .skip
  | .error .system => .fatal
  | .error (.other m) => if F.handlerReturns (.other m) then .fail else .fatal

/-- base_webdataset.py:157-170: the `MapDataset` over the reader `D`. -/
def Factory.dataset (F : Factory B C) (D : Dataset σ (Smp B) κ) : Dataset (σ × LoopX (Smp B)) (Smp C) (κ × Nat) := mapD D F.mapFn true

end Verif.Decode
