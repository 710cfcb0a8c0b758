# Formal model of Megatron-Energon in Lean 4

Contents: 1 trusted base, 2 method, 3 what is modelled and what is not, 4 property by property, 5 where the code and the
properties disagree, 6 how the theorems are tested.

## 1. Trusted base
* Lean 4.33.0's kernel, and the elaborator for turning source text into the terms the kernel checks.
* Axioms: at most `propext`, `Classical.choice`, `Quot.sound`, the three standard ones. `AXIOMS.txt` lists them for every theorem
  in MANIFEST.json (made by `tools/axioms.py` with `#print axioms`). No axioms of our own, no evaluation by compiled code;
  concrete examples are checked by the kernel (`decide`, `decide +kernel`, `rfl`).
* The reading of the Python source: each definition cites the file and lines it models. The code itself is not run.
* Behaviour of external code that is written into the model: Python (`PurePosixPath` text rules, `//`, `%`, `round` half to even,
  generators: no code runs before the first `next`), IEEE double rounding (`Verif/Float`), the protocol of PyTorch's
  `_MultiProcessingDataLoaderIter` (`Verif/Loader/TorchModel`), PIL's and torch's conventions for pixel positions (`Verif/Transform`).
* Parameters of the model, arbitrary in all theorems: random generators (`ρ → Nat → Nat × ρ`, the state being what is saved), user
  functions (any result, skip, failure, fatal failure), hash functions, the contents of tar files, schedules of worker processes, crash
  points.

## 2. Method
* Pure arithmetic (sharding, splits, lengths, indices, paths, padding): total functions with error values; theorems by induction.
* Datasets: a dataset object together with its suspended generator is a state machine (`Verif/Stream/Model`): small steps with outcomes
  *yield*, *internal*, *end of pass*, *exception*, and `save`, `resume`, `reset`, `restoreSample`. `Verif/Stream/Spec` is the
  small vocabulary the property theorems are written in: `Pass s xs s'` (a whole pass delivers `xs`), `Items`, `Trace`, `Equiv` (same
  observable behaviour for ever), `ResumesExactly`, `ResumesUpToEnd`, `RestoresSamples`, `History` (any sequence of deliveries,
  ends of passes and save-and-restart).
* Wrapper theorems hold *for every inner dataset* with the corresponding property, so they hold for all nestings; resuming is proved by
  weak bisimulation, contents by invariants over runs. `Verif/Pipeline` assembles the wrappers exactly as `build_train_datasets` /
  `build_val_datasets` do and draws the end-to-end conclusions (C65-C69, C77-C79). `Leave/*` adds to each class what is left when its generator is dropped (C80).
* Where the code violates a property, the negation is proved on a concrete witness (`..._violated...`), and the part that does hold is
  a theorem with the suffix `_partial`. The status in MANIFEST.json is then `partial`, even if nothing more can be proved.

## 3. Modelled and not modelled
Modelled (all under /repo/src/megatron/energon): `worker.py` (ids, seeds, indices), `rng.py` (as far as saving/restoring goes), all of
`wrappers/`, `savable_loader.py` (worker wrapper, checkpoints, merging/splitting of states, both loaders),
`flavors/base_dataset.py` (restore keys), `flavors/webdataset/{sharder,sample_loader,single_shard_reader,joined_webdataset,itar,prepare,
metadata,base_webdataset}.py`, `metadataset/*`, `retry_stream.py`, `epathlib/epath.py`, `task_encoder/{base,cooking}.py`,
`transforms/{merge,mappers}.py`, `typed_converter.py` (except `override`), `dataset_config.py:load_config`; see section 4 for the later additions.

Not modelled: the bytes of the tar format and of sample contents (decoding), real multi-process memory, time, logging and debug output,
`multistorageclient`/rclone transport, the garbage-collection tuning as such (only that it passes samples through), the command line
tools' user interface, yaml parsing, exceptions raised by the operating system other than the ones listed in each model.

Simplifications common to several models
* A user function sees its sample and its own sample index, not the index stack of outer wrappers (that stack is modelled in `Verif/Worker`, C08).
* Samples of all stages of a pipeline are of one type.
* `Batch`, `Group`, `Pack`: `restoreSample` models a stateless function; the assertion for others is `Pipeline.onlyIf`.
* `EpochizeDataset.restore_state(None)` leaving its inner generator alive is modelled only in `Again/Rewind`.

## 4. Property by property
Status and exact theorem names: MANIFEST.json. Statement of each property: properties.jsonl.

| id | model | how it is proved |
|----|-------|-------|
| C01-C03 | `Sharder/Model`: split into slices, bit reversal, worker assignment, with error values | induction over offsets and shards; a slice = list of (shard, index); `readByAll` is a permutation of `total` |
| C04-C05 | `_split_shard` over doubles | relative error bound in general; kernel evaluation for the lost sample |
| C06 | rotation offsets folded over the datasets | counting lemma: extra samples are dealt round robin |
| C07-C08 | `Worker/Model` index stack machine | arithmetic; induction over well nested programs |
| C09 | `rank_worker_id` | cyclic order proved; the start is wrong unless `2k = 0 mod n` |
| C10-C11 | `Wrap/Shuffle*` with any generator | buffer invariant (permutation); bisimulation |
| C12-C13 | `Wrap/Simple*` | bisimulation with counters |
| C14, C52 | `Wrap/MapGen*`, `Wrap/IterMap*` | invariants; counterexamples by evaluation |
| C15-C17, C24 | `Wrap/Blend*` | projection to each part; bisimulation |
| C18-C23 | `Wrap/Length*` | counters; bisimulation up to end-of-pass marks |
| C25-C27, C51 | `Wrap/Batch*` | chunks of the input; bisimulation at batch borders |
| C28-C29 | `Wrap/Group*` | multiset of buffered samples; exact batches and order by an invariant over the buckets |
| C30-C31 | `Wrap/Pack*` | buffers as multisets; bisimulation |
| C32-C33 | `Wds/Loader*` (any mode, number of parallel slices, generator) | invariant: remaining samples of the epoch; bisimulation |
| C34 | restore law of each layer | compositional; end to end in C66 |
| C35 | `Loader/Torch*`: all schedules of workers and consumer | invariant over the global state; progress measure |
| C36-C37 | `Loader/Worker*`: checkpoints, skip counters, merged states | simulation of the restarted loader by the running one |
| C38-C41 | `Io/*`: bytes, file system steps with crashes, sub file view, retrying stream | round trip, refinement to an ideal file |
| C39, C42, C54-C56 | `Wds/Reader*`, `Exclude`, `Name`, `Join` | induction over tar members |
| C43, C59 | `Prep/*` | cumulated ratios in doubles |
| C44-C45, C57-C58 | `Meta/*`: trees of references, blends, joins | structural induction |
| C46-C47, C49, C60 | `Task/*` | case analysis over the state of the global generators; induction over shapes and fields |
| C48, C61-C62 | `Path/*` | induction over path components |
| C50, C63-C64 | `Transform/*`: 3x3 matrices over an ordered field | induction over the list of transforms |
| C65 | `Pipeline/Model`, whole training dataset | composition of the wrapper theorems |
| C66 | restoring any delivered batch by its key | composition |
| C67-C68 | whole validation pass over all workers of all ranks | composition with C01 |
| C69 | training over all histories of interruptions | each stage is an on-demand function of the samples (`Stream/Demand`, `Pipeline/Stages`); composition with C32, C01 |
| C70-C71 | `Config/Field*`: field maps | induction over descriptions and nested values |
| C72-C74 | `Config/Typed*`: raw data, annotations, the conversion with a bound on the recursion | induction over the bound; `Fits`, `Conforms`, `Exact` are inductive specifications |
| C75-C76 | `Config/Load*`: `load_config`, calling with named / positional arguments | induction over the parameters |
| C77 | `Stream/Flow`, `Pipeline/Progress`: every `next` of the training dataset answers | per-wrapper progress measure (`*_flows`), composition |
| C78 | `Pipeline/Loader`: worker loops around the training dataset | composition of C35, C36, C65, C69, C77 |
| C79 | `Pipeline/ValLoader`, `Pipeline/ValContents`, `Pipeline/ValLeft`, `Loader/TorchEpoch`: worker loops around the validation dataset, loop after loop; loops left early with a savable loader | composition of C35 (termination by a lexicographic measure), C53, C67 |
| C80 | `Leave/*`: per class the state after its generator was dropped (attributes stay, local variables are lost); histories with saving, restoring, leaving; `Leave/Workers` for worker processes | relation `Leaving` (state and left state behave alike) through every wrapper; counting of tasks over all schedules |
| C81 | `Ranks/*`: `save_state`/`restore_state` on all ranks as requests for collective operations, whose semantics (all take part or nobody returns; global ranks as roots) is written into the model | case analysis over the requests; job histories projected to the ranks |
| C82 | `Mix/*`: `concat_pad`, `generic_concat` (sharing the recursion with C60), `MixBatchDataset` as batches of a blend | induction over the tensors; composition of C15, C16, C25, C51 |
| C83 | `Pipeline/Refuse`: what `restore_sample` does if a function is not stateless | a property of all keys, propagated stage by stage |
| C84 | `Wrap/BatchGen*`: BatchDataset with a generator function; the list object shared between saved states and the running iteration | induction over the passes; invariant of the keys; lockstep simulation |
| C85-C86 | `Lint/*`: what happens with the exceptions of reading and loading samples; the memory of each process | induction over samples, split parts and workers |
| C87 | `Loader/Command*`: the threads of the worker processes, the lock, the queues, the requests for samples, as an interleaving transition system | invariant over all reachable states; a measure that decreases with every step during a call (so no fairness is needed) |
| C88 | `Wrap/HasSamples`: `hasSamples` of every wrapper and of the reader | invariant: no wrapper delivers anything without having got a sample of its source |
| C89 | `Wrap/Reset`, `Pipeline/Reset`: `reset` of every wrapper, the reader, the validation pipeline | bisimulation: the wrapper's part is the initial one, the source is equivalent to a new one; EpochizeDataset, whose `restore_state(None)` leaves the running inner generator alive, has a model of its own (`Again/Rewind`) and a counterexample |
| C90 | `Sharder/RankProps`: sums over the workers of a rank of what `Sharder/Model` gives | position `p` of the bit reversal sequence lies in the block of workers given by the reversed low bits of `p`, so remainders are dealt to ranks round robin |
| C91 | `Sample/Model`: `extend`, `derive_from`, `from_joined`, conversions of the default task encoder over classes with declared fields; not modelled: `__post_init__`, `init=False` fields, `_pin_memory` | the folds over dicts are characterised by lookups; constructor calls by which names are given |
| C92 | `Worker/Log`: `worker_log` over files named by worker id and pid, in any order of calls of all processes | invariant: the open file of a process is the one of its id and holds all its entries |
| C93 | `Again/Model`: the state object and which of its lists the running dataset shares, for the reader and the wrappers | invariant: only what has no effect changes in the object (reader, filter, log, gc, blend, concat, endless repeat; contents for map); counterexamples for the others |
| C94 | `Again/Rewind`, `Again/RewindMore`: `restore_state` on a used dataset, with the attributes and the suspended generator of the reader apart, `_active_iter` of `EpochizeDataset` | nothing of the old state survives, for all stacks without virtual epochs; counterexamples with them |
| C95 | `Meta/PrepareModel`: reading the files of metadatasets, references as strings resolved by `Verif.Path`, local and remote | equivalence of loading with an inductive predicate on files (`Sound`); simulation between the two trees |
| C96 | `Meta/PrepareModel`: `get_train_dataset` / `get_val_dataset` with keyword arguments, `_split_kwargs`, `load_dataset` | for datasets and for `subflavors`; counterexample: other arguments with a metadataset |
| C97 | `Wds/FilterModel`: `read_next` with `part_filter` and exceptions of parts | factorisation: reading everything (C39), then removing parts |
| C98 | `Code/Model`: `ModuleLoader` with files that change, function objects by evaluation and name | invariant of histories; inductive specification of the content that is used |
| C99 | `Debug/Model`: heatmap, generators over the logs, the merging loop, key index | invariant of the cells under halving; induction over steps and logs |
| C100 | `Debug/Keys`: `default_get_keys` over a small type of python values | case analysis; counterexamples for all samples of a shape |
| C101 | `Prep/InfoModel`: `energon info`: totals, sizes with units in doubles, lines of the split parts | the printed numbers against `fromConfig` (C59); error bounds of rounding; counterexamples: excluded shards, brace patterns, sizes from 1 PiB |
| C102 | `Config/DialogModel`: the dialog of `energon prepare` as a function of the answers, and the checks on loading | induction over fields and answers, against the model of the field map (C71); counterexamples: crude samples, missing bracket |
| C103 | `Wds/ScanModel`: `_preprocess_tar`, `iter_dataset_content`, the collection of results, with exceptions | induction over members against the groups of C39; counterexample: exception while the index is completed |
| C104 | `Pipeline/TrainEpochs`: the composition of `trainDs` (Pipeline/Model), the loaders (ValLoader `loaderDs`) and the worker processes (`Loops`, C35) | endless runs cut into passes by `EpochizeDataset`; round robin from the shares; loops by C79_loop_order |
| C105 | `Pipeline/Len`: all `__len__` methods on the way from the reader to the loader, against `valDs`/`trainDs` and `Loops` | number of batches per worker from C68; balanced lists are determined by length and sum; C27 for the formula; C104 for training |
| C106 | `Path/Collect`: `EPath.glob` with shell patterns (fsspec, from its documentation), sorting, `relative_to`, `--exclude`, brace expansion as a parameter | matching of literal names; disjoint suffixes; C61 for the way back |
| C107 | `Loader/Draws`: a dataset with a function drawing from the global generators of its process, saved with them (worker processes) or without (no worker processes) | traces with the generator threaded through; C36 for the loader |
| C108 | `Wds/JoinResume`, `Pipeline/JoinModel`, `Join`, `JoinShuffle`: joined datasets (several columns, the zip of their shards, the factory's assertions, slices per worker, the multi-column reader, restore keys) in the training and validation pipelines | slices of zipped shards from C01/C02, the joined reader from C54, loader C32/C33; invariant of the shuffle buffer for the violation |
| C109 | `Pipeline/Scaling`: all workers of all ranks of a training run, with the numbers from which seeds are computed and the sample index that user functions see; loaders with and without worker processes, virtual epochs; global batches as the micro-batches of all ranks in a training step | the dataset of a worker depends on its global number only (C03, then stage by stage); endless runs through the wrappers of the loader; histories of the loader from C35; counting for the global batches |
| C110 | `Config/OverrideModel`: `_split_dict_keys`, `_isinstance_deep` and `override`, branch by branch; places of a configuration are lists of names and indices (`OverrideSpec`), independent of how keys are split | induction over the number of nested calls: what no key names is unchanged; what a key names is the converted value; the result has the annotated type; counterexamples for `Any`, optional values, lists, dicts, tuples of fixed size, mixed keys, `-`, derived classes |
| C111 | `Path/RemoteModel`: the places of the rclone configuration, `ConfigParser` from the parsed file on (with interpolation), the arguments of `S3FileSystem`, and processes with path objects: creating, deriving, forking, accessing (`fork_guard`) | invariant over all histories: each object has the arguments of its remote, each connection the number of the process it was made in; the file as the first of a list; induction over texts for `%`; counterexamples: `%`, endpoints starting with http, numbers of processes used again, `..` above the remote |
| C112 | `Worker/Seed`: `WorkerConfig.__eq__`, the checks of wrappers and loaders, `worker_seed` with the text that is hashed, the seeds of worker processes | induction over the construction of a pipeline; the text `number,offset` determines both; counterexamples for the configuration passed to a loader, mixed seed offsets, other objects, no worker processes |
| C113 | `Prep/CrashModel`: the texts of `.info.yaml` and `split.yaml` as PyYAML writes them (plain names), the order of the writes, files that are cut at any character, a reader of such texts, loading a part (C59) | induction over lines and texts: what a prefix of a text is read as; the first preparation writes `dataset.yaml` last; counterexamples for repeated preparations. Not modelled: names that need quotes, crashes of the machine, `exclude` edited by the user |
| C114 | `Sample/Pin`: `PinMemoryMixin._pin_memory` on finite trees of tensors, dicts, dataclasses, named tuples, sequences, classes and other objects; constructors and `__post_init__` as parameters | mutual structural induction over values; counterexamples for derived dicts, `init=False`, `__post_init__`, dataclass types and other containers. Not modelled: shared objects, the device, torch's own traversal of batches without the mixin |
| C115 | `Describe`: `config()` of the reader, all wrappers, the webdataset factories, cookers, loaders and the worker configuration, as values of JSON with functions; which of them `json.dumps` accepts | `Ds.told` lists the settings that can be read off; injectivity by mutual structural induction over datasets (`C115_config_partial`), the same settings give the same config; counterexamples for the settings left out. Not modelled: `JoinedWebdatasetFactory.config` (which leaves out the joiner), configs of user-defined subclasses |
| C116 | `Loader/FailModel`, `FailProps`: the torch iterator of C35 with answers that are samples or exceptions; a generator is dead after it raised; the counters of `SavableDataLoader` | C35 for the answers (stickiness after the end or an exception), induction over the results for the counters; counterexample for going on. Not modelled: exceptions of the loader's own threads, workers killed by a signal (torch raises RuntimeError) |
| C117 | `Preview`: the command with any sequence of answers, `to_str` on finite trees of values (whether it returns), the size of pictures with exact fractions | induction over parts and samples, mutual induction over values (`C117_shows` characterises the values that can be shown), linear arithmetic for sizes; counterexamples for the rest. Not modelled: the text, rounding of doubles, `repr` |
| C118 | `Pipeline/ValEach`: the list of `valDs` over one source each | corollaries of C67 and C68 for one source; same samples as together by permutations. Not modelled: `load_dataset` before it (C57, C70) |
| C119 | `Loader/FailResume`: the worker of C36 whose dataset raises (any state it is left in), the forced checkpoint, `get_checkpoint`, a new process; `Loader/FailLoader`: all workers of the loader of C35 with arbitrary schedules, `LIncE` | the invariants of C36/C37 relative to the state after the last delivered exception, by induction over histories (`IncE`); counterexamples for saving before the exception has been delivered and before the first sample |
| C120 | `Message/Model`: `compact_str` and `SampleException.from_sample` over values of any size and depth (`repr` of texts and of other values given) | induction on the depth and over entries; counterexamples: bytes, tuples and sample classes, keys beginning with `__` |
| C121 | `Gc/Model`: processes with any number of `GcDataset`s, a heap of objects only the cyclic collector frees, `gc.collect/freeze/unfreeze`, all other actions as events | invariants over histories of events (safety, count of `iter`, frozen only in passes), then: garbage is gone after `max n 1` samples; memory bound; counterexamples for passes shorter than `n` and for several freezing datasets |
| C122 | `Loader/EpochResume`: the worker of C36 over any number of passes (`PassRun`, `Does`), `get_checkpoint`, new processes (`IncP`); `Pipeline/EpochResume`: the training datasets with virtual epochs meet the hypotheses | invariant: position in the uninterrupted run, what is stored in each checkpoint is where the run goes on behind its index (at the end of an epoch: with the next one), by induction over histories; saving possible by an invariant on the two newest checkpoints; `Loader/EpochLoader`, `Pipeline/EpochTraining`: the whole loader, any number of loops per life, each a system of C35 (`LifeP`, `LIncP`) |
| C123 | `Loader/PassResume`: histories of the worker of C122 for datasets that resume exactly or up to the end of a pass, not saved while all samples of a pass have been delivered and the worker has not answered with its end (`IncV`); `Loader/PassLoader`: the whole loader (`LIncV`); `Pipeline/LimitResume`, `Pipeline/ValResume`: validation datasets (one dataset, no packing, grouping; without limit or with `drop_last`) meet the hypotheses | simulation: replace restoring at the end of a pass by going on with the next pass (`skipEnd`); in these histories the replaced dataset is restored to the same states, so C122 applies; the loops' contents from C68 |
| C124 | `Decode/Model`: `load_sample` with any decoder, the handler, and `ignore_decoder_errors`; `Decode/Props` | specification: inductive relation between samples and decoded contents; from C13; counterexample with the default handler |
| C125 | `Identity/Model`: the dict of the reader, the decoder, the sample loader with the basic fields around it, the constructor, crude samples, `basic_sample_keys`; `Identity/Props` | lookups in dicts built by folds, for any loader, decoder and class; counterexample: a file named `….__restore_key__` |

## 5. Disagreements between the code and the properties
Each is a theorem about the model. In the order of the properties:
* C04 / C67: with `max_samples_per_sequence`, slices can lose the last sample of a shard (`_split_shard` rounds in doubles).
* C09 / C36: `rank_worker_id` computes `(id + n - offset) % n`; restored loaders with 3 or more workers continue with the wrong worker.
* C11: a shuffle buffer saved while draining at the end of a finite source resumes differently.
* C84: generator batch functions: as C14; and `save_state` hands out the list `sample_restore_keys` itself, which the running iteration empties and refills, so a checkpoint that is kept in memory (as all checkpoints of worker processes are) names the samples of a later batch.
* C14, C52: generator functions: index off by one on resume, exceptions of a resumed generator not handled, stale generator state.
* C17 / C65: restore keys of a blend contain the index among the *non-empty* parts, so they name the wrong part if one part is empty for a worker.
* C19, C21: the end of a limited pass / an epoch is not reported again, or an error is raised, when the state was saved right before it.
* C22, C23: a finite repeat is empty on the second iteration, and loses or adds a pass on resume.
* C24: concatenation does not save the active part.
* C26, C27: keys of samples from a failed batch stay in the next key; the announced number of batches is wrong for uneven shares.
* C29: inverted condition in `GroupBatchDataset.restore_state` loses buffered samples; C66: grouped batches can never be restored.
* C31: generator packers; a missing worker state is merged wrongly.
* C36, C37: first sample lost when saved before every worker delivered; `ValueError` on saving again right after a restore; checkpoint evicted at the end of a pass.
* C40, C41: `SubFileReader` clamps seeks; `RetryReadStream` returns only the last piece of a read done in several pieces, `None` after ten rounds, and hides failed seeks.
* C42: excluded samples shift restore keys. C54: with a non-raising handler a group of the previous sample is delivered. C56: joined samples can never be restored.
* C43: ratios such as 1:4:1 lose a shard in `prepare`.
* C46: the worker seed is cached in the closure of `stateless`. C47: without cookers crude samples pass. C49: dtype of the first tensor. C60: fields missing in the first sample are dropped.
* C48: `..` above an rclone remote; paths with two leading slashes cannot be joined. C62: `x.tar` and `x.tgz` share an index, and so do the hidden file `.tar` and `.tar.tar` (`C62_violated_hidden`).
* C50: merged crops reveal cut-off parts, a rounding error of `CenterCrop`, ignored padding of `RandomCrop`, tensors with perspective, `p = 0`. C64: empty crop box.
* C71: the check for required fields of a sample type is vacuous. C73, C74: `Tuple[a, b]` gives a list; keys of dicts and classes are not checked (`_check_instance_type`
  is vacuous); paths cannot be written. C75: default values are converted, too. C76: positional arguments are reversed.
* C68: with a group criterion, batches are not put through `encode_batch` (no error is raised either).
* C77: a user function that rejects (skips or fails on) every sample makes `next` of the training dataset run forever, only logging. With grouping and infinitely many groups (`sample_group_key` gives each sample its own) `next` runs forever too, and the buckets grow without bound.
* C80: leaving a loop: `get_loader` with n worker processes loses 2n samples; validation with several datasets starts the first one again and misses samples of the later ones; a limit larger than the pass gets out of step; the rest of a pack of a generator packer is lost;
  generator functions are called again with another sample index.
* C53: the running number in the key of the loader without workers is not saved. C57, C58: multipliers and split configurations of joins are ignored.
* C81: `restore_state(src_rank=...)` never works with two or more ranks; `save_state(dst_rank=...)` mixes up data parallel and global ranks; a loader with workers saves `None` between being restored and its first sample.
* C85: `energon lint` with worker processes (`--parallel` is 1 by default) does not notice failing samples: the variables its handler sets are those of the worker process. A split part without shards ends it with an `AttributeError` (`BaseWebdatasetFactory.EmptyDatasetError` does not exist). A metadataset file is never accepted.
* C86: `error_handler` looks for keys in lists, but raw samples are tuples: the handler gets `None` instead of the key of a sample that cannot be loaded.
* C87: the command thread is started before the lock is taken and before the state is restored: a worker of a restored loader may answer a call with its initial state (`C87_violated`, `C87_early_checkpoint`), depending on the order of the threads.
* C88: LimitDataset.worker_has_samples looks at the total length, not at the share of the worker: a worker with share 0 is said to have samples (`C88_violated_limit`), and repeating it forever passes the check and hangs (`C88_violated_repeat`).
* C89: `restore_state(None)` does not reset the random generator of shuffling, blending and reading (`C89_violated_shuffle`, `C89_violated_blend`; what holds: `C89_shuffle_partial`, ...), nor the counters of GroupBatchDataset: a validation set with groups delivers its batches with other restore keys in every pass (`C89_violated_group`).
* C90: the bit reversal sequence, made to balance ranks, only does so for powers of two of ranks: with three ranks of two workers, three samples go to workers 0, 3, 1, so two of them to the first rank and none to the last (`C90_violated`).
* C92: restoring a sample of another worker than the first one, in a main process that logs at level 2 or above, makes it log under another worker id; going back, it opens its own log file with "w" and so empties it (`C92_violated`). Without `{pid}` in the path the file of a running worker is emptied.
* C93: without worker processes `restore_state` keeps references to the lists of the state object (`self._offset = state.offset` and the like), and iterating changes them. Restoring the same object a second time gives something else: with a shuffle buffer samples twice and others never (`C93_violated_shuffle`), with virtual epochs or a limit an epoch of another length (`C93_violated_epochize`, `C93_violated_limit`), with repetitions possibly nothing at all (`C93_violated_repeat`), with map functions and batches other sample indexes and restore keys (`C93_violated_map`, `C93_violated_batch`). With workers the object is not changed.
* C94: `EpochizeDataset.restore_state` keeps the running iterator of its source (`_active_iter`). Setting back a loader in use with virtual epochs (no worker processes) goes on with the old position (`C94_violated`), and the states it saves afterwards are wrong (`C94_violated_save`). `restore_state(None)` does not set it back either (`C89_violated_epochize`).
* C96: `subflavor`, `dataset_config` and `split_config` given to `get_train_dataset`/`get_val_dataset` with the path of a metadataset file are passed to the constructor of the metadataset, which has no such parameters: always an error (`C96_violated`), although the documentation describes them without this restriction.
* C98: `get_function("code.py:f")` without `relative_path` never works (`open` asserts an absolute path; the docstring says the current directory is used); `rclone://remote/code.py` without function name is split at the first colon, although a default name exists (`C98_violated_cwd`, `C98_violated_protocol`).
* C99: `analyze-debug` with odd sizes raises when the scale changes (size 1: loses everything counted before); `--skip N` always ends in an `AssertionError`, because every loader logs from `global_idx` 0 and `log_entries` asserts instead of skipping; the fallback to the order of loading calls `heatmap.add` without `src`, always a `TypeError`.
* C100: with logging on, keys of unbatched samples are not logged, of dict samples the characters of the key are counted, of lists only the first element is, and an empty list makes the loader fail (`IndexError`).
* C101: `energon info` ignores `exclude` of split.yaml (`C101_violated_exclude`), ends with a `KeyError` for brace patterns (`C101_violated_braces`), and divides once too often from 1 PiB on (`C101_violated_size`: 2 PiB are printed as 2.00 TiB).
* C102: choosing crude samples in the dialog of `energon prepare` writes a dataset.yaml that can never be loaded (`C102_violated_crude`: `CrudeSampleDummy`, without field map and sample loader); `json[text` is accepted as an answer and no sample can be loaded afterwards (`C102_violated_brackets`).
* C103: if the index of a shard cannot be completed, "Skipping it" is logged but the shard is listed, without an index (`C103_violated`).
* C105: `len(loader)` of a validation loader is wrong if the samples do not divide evenly and the last batches are not dropped (`C105_violated_last`), with several datasets (`C105_violated_datasets`), and with a limit that is not distributed to the workers like the samples (`C105_violated_limit`).
* C106: `energon prepare` in a directory with `*`, `?` or `[` in its path finds nothing or other datasets' shards (`C106_violated_magic`); shards with braces in their names are replaced by others (`C106_violated_braces`); `.tgz` shards are prepared, but loading refuses them (`C106_violated_tgz`).
* C107: without worker processes the global random generators are not part of the saved state (`C107_violated_main`).
* C108: joined samples get a restore key starting with the name of the factory class (`set_sample_restore_key(..., src=self)`), but `restore_sample` requires `Webdataset` (C56). So with a shuffle buffer of two or more samples every state saved during training on a joined dataset is unusable: the next sample after restoring is an error (`C108_violated_shuffle`, for all datasets, `C108_violated_training` for a whole pipeline).
* C109: docs/source/repro_scaling.md promises the same global batches for each distribution of the same number of workers over ranks. `current_sample_index` is `n * num_workers + worker` (worker.py:104-112), so it depends on the distribution; and `@stateless(restore_seeds=True)` (the documented way to use randomness) seeds from it. So with augmentations the global batches are different (`C109_violated_restore_seeds`); without functions that use the index they are the same (`C109_same_global_batches_partial`), unless virtual epochs are used whose length is not a multiple of the workers of a rank, because each epoch starts with the first worker again (`C109_violated_epochs`; what each rank gets for every length: `C109_rank`). Continuing a run with another number of ranks, which the same page mentions, is not offered by the API: a state has one entry per rank and one per worker of the rank.
* C110: `override` (typed_converter.py:682-1097): the text `False` for `Any` becomes `True` (line 756, `C110_violated_any`); optional values cannot be set to `None`, `subtype is None` is never true (`C110_violated_none`); `_isinstance_deep` takes `typing.get_args` of the value, so overriding inside a list, dict or literal that is an alternative of a union is always a `ValueError` (`C110_violated_optional_list`); lists cannot be extended although the code checks for gaps (`C110_violated_append`), and no overrides for a list is an error (`C110_violated_empty_list`); for dicts the values are unpacked as if they were entries (line 1062, `C110_violated_dict`); elements of `Tuple[...]` of fixed size are read by the class of the present value (`C110_violated_tuple`); nested dicts beside keys with dots, and names with `-` beside `_`, lose values (`C110_violated_mixed`, `C110_violated_dash`); in `Union[Base, Derived]` a value of the derived class becomes one of the base class (`C110_violated_derived`). Also, line 643 writes into the dict of the caller (not modelled).
* C111: `ConfigParser` interpolates `%` (rclone does not), and all sections are read for each remote: a secret with a `%` in any section makes all remotes unusable (`C111_violated_percent`). An endpoint such as `httpstore.example.com` gets no `https://` (`C111_violated_http`). A section without `type` is an `AttributeError`. `fork_guard` compares process numbers, which may be used again (`C111_violated_reuse`). Certificates are not verified (`verify: False`, epath.py:141; not modelled). `"a" / EPath("b")` is an `AttributeError` (`__rtruediv__` calls `is_absolute` of a `str`).
* C112: worker.py:48-56 documents that the worker configuration passed to the loader seeds the generators of user code; loader.py accepts one that differs in `seed_offset` and ignores it (`C112_violated_offset`). `__eq__` ignores `seed_offset`, so datasets with different offsets can be put together (`C112_violated_mixed`), and for other objects it returns (not raises) an exception object, which is true: anything is accepted as `worker_config` of a loader (`C112_violated_other`). Without worker processes the generators are not seeded (`C112_violated_main`).
* C113: `energon prepare` writes `.info.yaml` and `split.yaml` in place (prepare.py:220, 258). If it is repeated for a prepared dataset and killed while writing `split.yaml`, the part written last loses its last shards silently (`C113_violated_split`); if killed while writing `.info.yaml`, the last number may lose digits and samples are silently left out (`C113_violated_info`). (The index files are written to temporary files and renamed, C38.)
* C114: `_pin_memory` (base_dataset.py:37-59): dicts of derived classes (`defaultdict`, `OrderedDict`, `CrudeSample`) become plain dicts (`C114_violated_dict`); dataclasses with a field `init=False` are an exception (`C114_violated_init`); `__post_init__` runs a second time on what it made (`C114_violated_post`); a dataclass type as a value is an exception, and tensors in sets or other objects are not pinned (`C114_violated_others`).
* C115: `sample_loader` in the config of a webdataset is the name of a lambda made in `__init__`, always the same text, so field maps, sample loaders, part filters and `auto_decode` are not told (`C115_violated_loader`); `GroupBatchDataset.config` leaves out the batch size (`C115_violated_group`); `WorkerConfig.config` leaves out `seed_offset` (`C115_violated_seed`); functions are told by module and name only, joined by a dot (`C115_violated_functions`); `exclude` is listed in the order of a set of strings, which differs between processes (`C115_violated_exclude`); the `condition` of a cooker is put into the config as a function, and with logging `json.dumps` raises TypeError: no loader can be made (`C115_violated_condition`).
* C116: after an exception of a worker's dataset has been raised out of `next`, going on with a `SavableDataLoader` with worker processes delivers nothing of that worker any more until the iteration is over for all workers; in training never, so its share of the data is lost silently (`C116_violated_lost`, `C116_violated`). Without worker processes, or after saving and restoring, it goes on.
* C117: `energon preview`: after no, "Exiting Preview" is printed, but the loop over the split parts goes on with the next part (`C117_violated_exit`); named tuples are an AttributeError (`field.name` of a string), pictures of one color a ValueError (`int(nan)`), and the preview ends (`C117_violated_values`); wide pictures are shown more than three times as wide as the terminal, high ones with more lines than it has (the two cases of keeping the aspect ratio are swapped; `C117_violated_wide`, `C117_violated_high`).
* C119: an exception in a worker process stores a checkpoint by force, which pushes out one that is still needed when samples of this worker have not been delivered: `save_state` fails with "No checkpoint found" (`C119_violated_save`); when the exception comes before the first sample of a worker, the saved state skips one sample (`C119_violated_first`, like C36). An exception that is already in the queue when the state is saved is never seen by the user: the restored worker goes on behind the sample that failed (`C119_violated_silent`).
* C120: values that are neither dict, list nor text (the bytes of a picture, tuples, a whole sample dataclass) are written completely into messages of errors (`C120_violated_bytes`); so are values of keys beginning with `__` (`C120_violated_special`).
* C121: `GcDataset` counts samples anew in each pass, so passes shorter than `every_n_iter` never collect (`C121_violated_passes`); `gc.unfreeze` at the end of a pass also unfreezes the objects of other passes that are still running and what the user has frozen (`C121_violated_unfreeze`, `C121_violated_user`).
* C122: training with virtual epochs, saved while one worker has delivered all of its share of the epoch and another has not (with `n` workers that is so for up to `n - 1` positions before each end of an epoch): the restored worker goes straight on with its next share, so that the first loop is longer than the rest of the epoch, and the workers stay out of step (`C122_violated_rest`: 3 batches instead of 1; loader form of `C36_violated_end`). The offset of the workers is kept in all later loops, but torch's `_reset` begins each loop with process 0: after a restore with next worker `k > 0`, every later epoch begins with worker `n - k` instead of worker 0 (`C122_loader_first`), so the order of batches differs from the uninterrupted run.
* C123: saved when the user has all samples of a pass and the worker has not yet reported the end, the restored loader's first loop is empty (for this worker) or a complete next pass, depending on whether the newest checkpoint was stored at the last sample (the `checkpoint_every_sec` timer had fired) or before it, in which case skipping runs across the end of the pass (`C123_violated_timing`). With several validation datasets the resumed run begins with the first one again (`C123_violated_several`). With a limit and an incomplete last batch, saving behind this batch makes the next pass too short by the batches counted before (`C123_violated_limit`). With packing, the end of the pass is not reported after the last packs (`C123_violated_packing`); with grouping, waiting samples are lost (`C123_violated_grouping`).
* C124: `ignore_decoder_errors` has no effect: `_decode_error_handler` is never called, and with the default handler the first sample that cannot be decoded ends the iteration (`C124_violated`, `C124_violated_raises`, `C124_no_effect`).
* C125: the reader writes the files of a sample into the dict that already contains `__key__`, `__shard__` and `__restore_key__`, so a file `001.__restore_key__` (of a dataset without restrictive part filter, i.e. any crude dataset) replaces the restore key by its content, and the sample cannot be restored (`C125_violated_file`, `C125_violated`).
* C82: `homogeneous_concat_mix` drops batches of different types (documented: returned as a list), does not concatenate fields that are lists (the tensors get one row for each sample, `__key__` one entry for each batch), converts to the type of the first tensor; `MixBatchDataset` cannot restore its batches.

## 6. How the theorems are tested
`seeded/mutants.py` lists realistic bugs as textual edits of the model; `tools/mutate.py` applies each to a scratch copy, rebuilds and records which
theorems fail in `seeded/LOG.jsonl` (with the theorems that had to be tightened). A mutant whose claim becomes false must not build. Beside the
theorems, `example`s show that concrete non-trivial states meet the hypotheses.
