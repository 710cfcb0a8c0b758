#!/usr/bin/env python3
"""Writes ../properties.jsonl (kept as a script only so that the long statements stay editable)."""
import json, os
B = "src/megatron/energon/"
P = []
def p(title, statement, quantifier, why, anchors):
    P.append(dict(id="C%02d" % (len(P) + 1), title=title, statement=statement, quantifier=quantifier,
                  why_tests_cant=why, anchors=[B + a for a in anchors]))

SH = "flavors/webdataset/sharder.py"
# C01
p("Workers partition the dataset",
  "When a dataset of shards is distributed over all ranks and data-loader workers (no limit on samples per sequence), reading the slices of rank 0 worker 0, rank 0 worker 1, ..., last rank last worker one after the other visits every sample of every shard exactly once and in the original order: nothing is lost and nothing is read by two workers.",
  "every list of shards (any counts, including empty shards), every world size, every number of workers (0 is treated as 1), every rotation offset",
  "the space of shard sizes x world sizes x worker counts is unbounded; the failing cases are boundary coincidences (a worker boundary falling on a shard boundary, empty shards, fewer samples than workers)",
  [SH + ":Sharder.shard_workers", SH + ":Sharder._split_shards"])
# C02
p("Workers get balanced shares",
  "The numbers of samples assigned to any two data-loader workers (of any ranks) differ by at most one.",
  "every total number of samples below 2^53, every world size, worker count, rotation offset and pair of workers",
  "unbounded parameter space, and the quotient is computed in floating point so single values prove nothing about others",
  [SH + ":Sharder.shard_workers"])
# C03
p("Sharding depends only on the global number of workers",
  "The slices read by a worker depend only on its global index rank*num_workers+worker and on the product world_size*num_workers: trading ranks for workers with the same product reassigns exactly the same slices.",
  "every pair of topologies with the same product, every shard list, every rotation",
  "needs to hold for all factorizations of the global number of workers",
  [SH + ":Sharder.shard_workers"])
# C04
p("Splitting long sequences loses no sample",
  "With max_samples_per_sequence set, the slices into which a range of a shard is cut cover this range exactly: in order, without gaps and without overlaps.",
  "every range and every max_samples_per_sequence, with the IEEE double arithmetic the code uses",
  "rounding errors occur only for particular (count, max) pairs; the smallest counterexample with max=2 has 185 samples, so sampled tests pass",
  [SH + ":Sharder._split_shard"])
# C05
p("Sequence slices respect the configured bound",
  "With max_samples_per_sequence = m no slice handed to a worker is longer than one and a half times m.",
  "every range and every m >= 1",
  "unbounded arithmetic; depends on banker's rounding at the .5 boundaries",
  [SH + ":Sharder._split_shard"])
# C06
p("Blended datasets are balanced jointly",
  "When several datasets are loaded together (blend / concat), the total number of samples a worker owns over all datasets differs by at most one between any two workers.",
  "every list of dataset sizes, every world size and worker count",
  "quantifies over all lists of dataset sizes",
  ["task_encoder/base.py:TaskEncoder.build_train_datasets", SH + ":Sharder.shard_workers", SH + ":Sharder._generalized_bit_reversal"])
# C07
p("Sample indices are unique inside a rank",
  "The sample index and the batch index given to user code (and used for seeding) in different workers of the same rank never coincide, and inside one worker they strictly increase.",
  "every number of workers (including 0), every pair of workers, every history of indices",
  "quantifies over all histories and all workers",
  ["worker.py:WorkerConfig.active_worker_sample_index", "worker.py:WorkerConfig.active_worker_batch_index", "wrappers/base.py:SampleIndex"])
# C08
p("Nested sample-index scopes are well bracketed",
  "However dataset wrappers nest their sample index scopes, leaving a scope restores exactly the index stack of the moment of entering it, and the assertions in the activation code are never violated by a well nested use.",
  "every well nested sequence of scope entries and exits, every depth",
  "unbounded nesting and histories",
  ["worker.py:WorkerConfig.worker_push_sample_index", "worker.py:WorkerConfig.worker_pop_sample_index", "worker.py:WorkerConfig.worker_activate", "worker.py:WorkerConfig.worker_deactivate"])
# C09
p("Resumed loaders continue with the worker whose turn it was",
  "After restoring a data loader state in which worker k was next, the first batch comes from the logical worker k, then k+1, and so on cyclically, i.e. the worker order of the resumed run is the one of the uninterrupted run.",
  "every number of workers and every k",
  "is true for one and two workers and for k=0, which are the configurations a test uses; fails for three workers",
  ["worker.py:WorkerConfig.rank_worker_id", "savable_loader.py:SavableDataLoader.restore_state_rank"])
# C10
p("Shuffle buffer emits a permutation",
  "The shuffle buffer emits exactly the samples of its source, each as often as the source does, for a finite source; and it never holds more samples than its configured size, so a sample is emitted at most size-1 positions early.",
  "every finite source, every buffer size, every random number generator behaviour",
  "quantifies over all random choices and all stream lengths",
  ["wrappers/shuffle_buffer_dataset.py:ShuffleBufferDataset.__iter__"])
# C11
p("Shuffle buffer resumes exactly",
  "Saving the state of a shuffled dataset between any two samples and restoring it in a fresh process yields exactly the samples (with contents, keys and order) that the uninterrupted run yields from there on, provided the source dataset has this property and restores samples by key.",
  "every source, every buffer size, every generator, every save point, every continuation length, also repeated save/restore",
  "all save points of all runs",
  ["wrappers/shuffle_buffer_dataset.py:ShuffleBufferDataset", "wrappers/buffer.py:SavableSampleBuffer", "rng.py:WorkerRng"])
# C12
p("Filtering, logging and garbage collection wrappers are faithful and resume exactly",
  "A filtered dataset yields exactly the samples of its source satisfying the predicate in order; the log and gc wrappers change nothing; all resume exactly whenever their source does.",
  "every source, predicate, save point and continuation",
  "all save points of all runs",
  ["wrappers/filter_dataset.py:FilterDataset", "wrappers/gc_dataset.py:GcDataset", "wrappers/log_sample_dataset.py:LogSampleDataset"])
# C13
p("Mapping with a plain function is faithful, isolates failing samples and resumes exactly",
  "A mapped dataset yields the images of the source samples in order; a sample for which the function raises an exception or asks to skip is dropped without affecting any other sample; the sample index passed to the function is the number of source samples seen so far; the dataset resumes exactly, including these indices.",
  "every source, every user function (including failing ones), every save point",
  "all user functions and all save points",
  ["wrappers/map_dataset.py:MapDataset.__iter__"])
# C14
p("Mapping with a generator function resumes exactly",
  "If the user function yields several samples per source sample, saving in the middle of such a group and restoring continues with the remaining samples of the group and gives user code the same sample index as the uninterrupted run.",
  "every source, every generator function, every save point inside a group",
  "all save points inside all groups",
  ["wrappers/map_dataset.py:MapDataset.__iter__"])
# C15
p("Blending draws faithfully from its parts",
  "In a blended dataset the subsequence of samples coming from one part is exactly the repeated stream of that part, in order, nothing skipped or duplicated; parts without any sample for this worker are never drawn; the blend never ends while some part has samples.",
  "every list of parts, every behaviour of the random generator, every prefix of the run",
  "all random choices",
  ["wrappers/blend_dataset.py:BlendDataset.__iter__"])
# C16
p("Blended datasets resume exactly",
  "Saving a blended dataset between any two samples and restoring it continues with the same sequence of parts and samples as the uninterrupted run.",
  "every list of resumable parts, every save point",
  "all save points and all random choices",
  ["wrappers/blend_dataset.py:BlendDataset", "wrappers/repeat_dataset.py:RepeatDataset", "rng.py:WorkerRng"])
# C17
p("Samples of a blended dataset can be restored from their key",
  "Restoring a sample from the restore key a blended dataset has put on it gives back this sample.",
  "every list of parts including parts that have no samples for the current worker",
  "fails only if some part has no samples for this worker and precedes the drawn one",
  ["wrappers/blend_dataset.py:BlendDataset.restore_sample", "wrappers/blend_dataset.py:BlendDataset.__iter__"])
# C18
p("Limit delivers exactly the requested number",
  "A dataset limited to L samples delivers per pass min(L_w, available) samples in worker w, these being the first ones of the worker's stream, and the per worker limits L_w add up to exactly L.",
  "every limit, every number of workers, every source",
  "all worker counts and limits",
  ["wrappers/limit_dataset.py:LimitDataset"])
# C19
p("Limit resumes exactly",
  "Saving a limited dataset between two samples and restoring it continues exactly as the uninterrupted run.",
  "every resumable source, limit and save point",
  "all save points",
  ["wrappers/limit_dataset.py:LimitDataset"])
# C20
p("Virtual epochs cut the stream without losing samples",
  "Every pass over an epochized dataset yields exactly the worker's epoch length, the epoch lengths of the workers add up to the requested length, and concatenating successive passes gives the uncut (repeated) source stream: nothing is lost, repeated or reordered at an epoch boundary.",
  "every epoch length, every number of workers, every number of passes, every source",
  "all epoch numbers and lengths",
  ["wrappers/epochize_dataset.py:EpochizeDataset"])
# C21
p("Virtual epochs resume exactly",
  "Saving an epochized dataset between any two samples (also at the end of an epoch) and restoring it continues exactly as the uninterrupted run, including where the epochs end.",
  "every resumable source, epoch length and save point",
  "all save points",
  ["wrappers/epochize_dataset.py:EpochizeDataset"])
# C22
p("Repeat delivers the requested number of passes",
  "A dataset repeated n times yields its source's pass n times in a row, and repeated forever (no count) it never ends and yields pass after pass.",
  "every source and every n",
  "unbounded number of repeats",
  ["wrappers/repeat_dataset.py:RepeatDataset"])
# C23
p("Repeat resumes exactly",
  "Saving a repeated dataset between any two samples and restoring it continues exactly as the uninterrupted run, and in particular delivers the same total number of passes.",
  "every resumable source, every number of repeats (also infinite), every save point",
  "all save points and repeat counts",
  ["wrappers/repeat_dataset.py:RepeatDataset"])
# C24
p("Concatenation delivers and resumes exactly",
  "A concatenated dataset yields its parts one after the other; saving between any two samples and restoring continues exactly as the uninterrupted run.",
  "every list of parts and every save point",
  "fails only when saving after the first part is exhausted",
  ["wrappers/concat_dataset.py:ConcatDataset"])
# C25
p("Batching partitions the stream",
  "Concatenating the batches (before user batching code) gives the source samples in order; every batch has exactly batch_size samples except possibly the last one of a pass, which is dropped if and only if it is incomplete and drop_last is set.",
  "every source, batch size, drop_last",
  "all stream lengths",
  ["wrappers/batch_dataset.py:BatchDataset.__iter__"])
# C26
p("A failing batch affects only itself",
  "If user batching code raises an exception or asks to skip for one batch, all other batches are the same as if it had not failed, with restore keys that restore exactly them.",
  "every source and every batching function, failing on any set of batches",
  "all failure patterns",
  ["wrappers/batch_dataset.py:BatchDataset.__iter__"])
# C27
p("The announced number of batches is right",
  "The length reported by a batched dataset is the number of batches its workers yield together when the source delivers its announced number of samples, distributed over the workers as evenly as possible.",
  "every number of samples, batch size, worker count and drop_last",
  "all arithmetic combinations",
  ["wrappers/batch_dataset.py:BatchDataset.__len__"])
# C28
p("Grouped batches are homogeneous and lose nothing",
  "With grouping, every batch contains only samples of one group key and at most the group's batch size, in source order, and (unless drop_last) each source sample is in exactly one batch.",
  "every source, grouping function and batch sizes",
  "all streams and groupings",
  ["wrappers/group_batch_dataset.py:GroupBatchDataset.__iter__"])
# C29
p("Grouped batching resumes exactly",
  "Saving a grouped batch dataset between any two batches and restoring it continues exactly as the uninterrupted run, in particular partially filled groups survive.",
  "every source, grouping function and save point",
  "all save points",
  ["wrappers/group_batch_dataset.py:GroupBatchDataset.restore_state"])
# C30
p("Packing uses every sample exactly once",
  "If the user's packing function distributes the samples of the buffer to packs, every source sample ends up in exactly one emitted pack per pass; packs are emitted in the order the packing function gives them, and the buffer never exceeds its size.",
  "every source, buffer size and packing function that partitions its argument",
  "all packing functions and stream lengths",
  ["wrappers/packing_dataset.py:PackingDataset.__iter__"])
# C31
p("Packing resumes exactly",
  "Saving a packed dataset between any two packs and restoring it continues exactly as the uninterrupted run.",
  "every source, packing function and save point",
  "all save points",
  ["wrappers/packing_dataset.py:PackingDataset", "wrappers/packing_dataset.py:PackingDataset.merge_states"])
# C32
p("Each epoch reads each slice exactly once",
  "In every epoch of the webdataset reader a worker reads each sample of its slices exactly once, whatever the shuffling, the number of parallel shard iterators, and the random choices; with shuffle_over_epochs = n the unit is n epochs and each sample is read exactly n times.",
  "every list of slices, every parallel count, every random generator behaviour",
  "all interleavings chosen by the generator",
  ["flavors/webdataset/sample_loader.py:WebdatasetSampleLoaderDataset._shards_iter"])
# C33
p("The webdataset reader resumes exactly",
  "Saving the reader's state between any two samples and restoring it in a fresh process continues with exactly the samples the uninterrupted run would have read, in the same order, across epoch ends.",
  "every list of slices, parallel count, generator and save point",
  "all save points and interleavings",
  ["flavors/webdataset/sample_loader.py:WebdatasetSampleLoaderDataset"])
# C34
p("Restore keys identify samples through the whole stack",
  "For every sample a stack of wrappers yields, restore_sample applied to the sample's restore key returns an equal sample.",
  "every nesting of the supported wrappers and every sample of every run",
  "all nestings and runs",
  ["wrappers/base.py:BaseSingleWrapper.restore_sample", "flavors/base_dataset.py:add_sample_restore_key", "wrappers/batch_dataset.py:BatchDataset.restore_sample", "wrappers/map_dataset.py:MapDataset.restore_sample"])
# C35
p("The multi worker loader delivers worker streams round robin",
  "The sequence of batches from the data loader is the round robin interleaving of the workers' streams, independent of how the worker processes are scheduled and how many batches they prefetch.",
  "every number of workers, every schedule of workers and consumer",
  "all schedules",
  ["savable_loader.py:SavableDataLoader.__iter__", "savable_loader.py:SavableDatasetWrapper.__iter__"])
# C36
p("Saving and restoring the multi worker loader is exact",
  "Saving the loader state after any number of delivered batches and restoring it into a fresh loader delivers exactly the remaining batches of the uninterrupted run, although the workers have prefetched further batches.",
  "every number of workers, every save point, every prefetch state, every time-based checkpoint pattern",
  "all save points x prefetch states x timer behaviours",
  ["savable_loader.py:SavableDataLoader.save_state_rank", "savable_loader.py:SavableDatasetWrapper.get_checkpoint", "savable_loader.py:SavableDatasetWrapper.__iter__"])
# C37
p("A worker keeps a usable checkpoint for what it has prefetched",
  "Whenever the main process asks a worker for a state at one of the samples that may still be in flight, the worker has a checkpoint not younger than this sample, so that the state can be reconstructed by skipping.",
  "every timer behaviour, every history of samples",
  "all timings",
  ["savable_loader.py:SavableDatasetWrapper._store_checkpoint", "savable_loader.py:SavableDatasetWrapper.get_checkpoint"])
# C38
p("Sample index files round trip and are published atomically",
  "Reading back the offset of sample i from an index file gives the offset written for sample i, for every i up to and including the end marker; and if the writer crashes at any point, readers find either no index file or the complete one.",
  "every list of offsets below 2^64, every crash point",
  "all crash points",
  ["flavors/webdataset/itar.py:TarIndexReader", "flavors/webdataset/itar.py:TarIndexWriter"])
# C39
p("Reading a slice by byte offsets yields exactly the samples of that slice",
  "With an index created by dataset preparation, reading samples a .. a+n of a tar file through its byte range yields exactly the samples number a .. a+n-1 that a sequential read of the whole file yields.",
  "every tar layout (member names and sizes), every slice",
  "all archive layouts",
  ["flavors/webdataset/prepare.py:WebdatasetPreparator._preprocess_tar", "flavors/webdataset/itar.py:get_itar_byte_offset", "flavors/webdataset/single_shard_reader.py:WebdatasetSampleLoaderShardReader"])
# C40
p("A sub file view behaves like the byte range as a file",
  "Any sequence of read, seek and tell on a byte range of a shard gives the same results as on a file containing just these bytes.",
  "every file content, range, and sequence of operations",
  "all operation sequences",
  ["flavors/webdataset/itar.py:SubFileReader"])
# C41
p("Reading through the retrying stream returns the requested data",
  "If a remote read fails or comes back short and is retried, the caller gets exactly the bytes it asked for, or an error.",
  "every content, every sequence of short reads and failures",
  "all failure histories",
  ["retry_stream.py:RetryReadStream.read"])
# C42
p("Excluded samples do not shift restore keys",
  "When individual samples are excluded by the split configuration, the restore key of each remaining sample still restores this sample.",
  "every shard and every set of excluded keys",
  "all exclusion sets",
  ["flavors/webdataset/single_shard_reader.py:WebdatasetSampleLoaderShardReader.read_next", "flavors/webdataset/sample_loader.py:WebdatasetSampleLoaderDataset.restore_sample"])
# C43
p("Dataset preparation assigns every shard to exactly one split",
  "Splitting by ratios assigns each shard to exactly one split part, and no shard is dropped, whatever the ratios.",
  "every number of shards and every list of ratios, in the floating point arithmetic used",
  "rounding errors occur for particular ratios and counts only",
  ["flavors/webdataset/prepare.py:WebdatasetPreparator.prepare_dataset"])
# C44
p("Nested blend weights are normalised",
  "The absolute sampling weights of the leaves of a (nested) metadataset blend add up to one and each leaf's weight is the product of the relative weights on its path.",
  "every tree of blends with positive weights",
  "all nestings",
  ["metadataset/metadataset_v2.py:MetadatasetBlend.get_datasets", "metadataset/metadataset.py:Metadataset.get_datasets"])
# C45
p("Outer dataset options override inner ones",
  "Subflavors given at an outer level of a metadataset win over those of inner levels key by key, and a split part given at an inner level wins over the outer one.",
  "every nesting and every assignment of options",
  "all nestings",
  ["metadataset/dataset_loader.py:DatasetLoader.get_datasets", "metadataset/metadataset_v2.py:DatasetReference.get_datasets"])
# C46
p("Stateless user functions are isolated and reproducible",
  "A user function marked stateless with restore_seeds sees random numbers depending only on the worker seed and the sample index, and the global random state after the call (also if it raises) is the one before; restoring a sample in another process sees the same random numbers.",
  "every function, every history of random numbers, every sequence of calls",
  "all histories of calls",
  ["task_encoder/base.py:stateless"])
# C47
p("Crude samples are cooked by the first matching cooker",
  "A crude sample is given to the first registered cooker all of whose constraints it satisfies, and if no cooker matches an error is raised.",
  "every list of cookers, every sample",
  "all combinations of constraints",
  ["task_encoder/cooking.py:Cooker.is_match", "task_encoder/base.py:TaskEncoder.cook_crude_sample"])
# C48
p("Path composition never escapes its root",
  "Joining a relative path to an absolute path yields an absolute normalised path, '..' steps are resolved and can never climb above the root (error instead); normalising twice changes nothing.",
  "every path",
  "all paths",
  ["epathlib/epath.py:EPath._resolve", "epathlib/epath.py:EPath.__truediv__"])
# C49
p("Padding a batch preserves every sample",
  "Batching tensors of different sizes with padding yields a rectangular batch in which each sample's values are found unchanged at their position and all other entries are the padding value.",
  "every list of shapes",
  "all shapes and batch sizes",
  ["task_encoder/base.py:batch_pad_stack"])
# C50
p("Merged image transforms are the composition of the transforms",
  "The single matrix applied by the merged transform maps every point as applying the individual geometric transforms one after another, and the output size is the one of the last transform.",
  "every list of affine transforms, every point",
  "all lists of transforms",
  ["transforms/merge.py:MergeTransform.forward", "transforms/mappers.py:TransformMapper"])
if __name__ == "__main__":
    exec(open(os.path.join(os.path.dirname(__file__), "more_properties.py")).read()) if os.path.exists(os.path.join(os.path.dirname(__file__), "more_properties.py")) else None
    with open(os.path.join(os.path.dirname(__file__), "..", "properties.jsonl"), "w") as f:
        for x in P:
            f.write(json.dumps(x) + "\n")
