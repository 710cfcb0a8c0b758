{"id": "C01", "title": "Workers partition the dataset", "statement": "When a dataset of shards is distributed over all ranks and data-loader workers (no limit on samples per sequence), reading the slices of rank 0 worker 0, rank 0 worker 1, ..., last rank last worker one after the other visits every sample of every shard exactly once and in the original order: nothing is lost and nothing is read by two workers.", "quantifier": "every list of shards (any counts, including empty shards), every world size, every number of workers (0 is treated as 1), every rotation offset", "why_tests_cant": "the space of shard sizes x world sizes x worker counts is unbounded; the failing cases are boundary coincidences (a worker boundary falling on a shard boundary, empty shards, fewer samples than workers)", "anchors": ["src/megatron/energon/flavors/webdataset/sharder.py:Sharder.shard_workers", "src/megatron/energon/flavors/webdataset/sharder.py:Sharder._split_shards"]}
{"id": "C02", "title": "Workers get balanced shares", "statement": "The numbers of samples assigned to any two data-loader workers (of any ranks) differ by at most one.", "quantifier": "every total number of samples below 2^53, every world size, worker count, rotation offset and pair of workers", "why_tests_cant": "unbounded parameter space, and the quotient is computed in floating point so single values prove nothing about others", "anchors": ["src/megatron/energon/flavors/webdataset/sharder.py:Sharder.shard_workers"]}
{"id": "C03", "title": "Sharding depends only on the global number of workers", "statement": "The slices read by a worker depend only on its global index rank*num_workers+worker and on the product world_size*num_workers: trading ranks for workers with the same product reassigns exactly the same slices.", "quantifier": "every pair of topologies with the same product, every shard list, every rotation", "why_tests_cant": "needs to hold for all factorizations of the global number of workers", "anchors": ["src/megatron/energon/flavors/webdataset/sharder.py:Sharder.shard_workers"]}
{"id": "C04", "title": "Splitting long sequences loses no sample", "statement": "With max_samples_per_sequence set, the slices into which a range of a shard is cut cover this range exactly: in order, without gaps and without overlaps.", "quantifier": "every range and every max_samples_per_sequence, with the IEEE double arithmetic the code uses", "why_tests_cant": "rounding errors occur only for particular (count, max) pairs; the smallest counterexample with max=2 has 185 samples, so sampled tests pass", "anchors": ["src/megatron/energon/flavors/webdataset/sharder.py:Sharder._split_shard"]}
{"id": "C05", "title": "Sequence slices respect the configured bound", "statement": "With max_samples_per_sequence = m no slice handed to a worker is longer than one and a half times m.", "quantifier": "every range and every m >= 1", "why_tests_cant": "unbounded arithmetic; depends on banker's rounding at the .5 boundaries", "anchors": ["src/megatron/energon/flavors/webdataset/sharder.py:Sharder._split_shard"]}
{"id": "C06", "title": "Blended datasets are balanced jointly", "statement": "When several datasets are loaded together (blend / concat), the total number of samples a worker owns over all datasets differs by at most one between any two workers.", "quantifier": "every list of dataset sizes, every world size and worker count", "why_tests_cant": "quantifies over all lists of dataset sizes", "anchors": ["src/megatron/energon/task_encoder/base.py:TaskEncoder.build_train_datasets", "src/megatron/energon/flavors/webdataset/sharder.py:Sharder.shard_workers", "src/megatron/energon/flavors/webdataset/sharder.py:Sharder._generalized_bit_reversal"]}
{"id": "C07", "title": "Sample indices are unique inside a rank", "statement": "The sample index and the batch index given to user code (and used for seeding) in different workers of the same rank never coincide, and inside one worker they strictly increase.", "quantifier": "every number of workers (including 0), every pair of workers, every history of indices", "why_tests_cant": "quantifies over all histories and all workers", "anchors": ["src/megatron/energon/worker.py:WorkerConfig.active_worker_sample_index", "src/megatron/energon/worker.py:WorkerConfig.active_worker_batch_index", "src/megatron/energon/wrappers/base.py:SampleIndex"]}
{"id": "C08", "title": "Nested sample-index scopes are well bracketed", "statement": "However dataset wrappers nest their sample index scopes, leaving a scope restores exactly the index stack of the moment of entering it, and the assertions in the activation code are never violated by a well nested use.", "quantifier": "every well nested sequence of scope entries and exits, every depth", "why_tests_cant": "unbounded nesting and histories", "anchors": ["src/megatron/energon/worker.py:WorkerConfig.worker_push_sample_index", "src/megatron/energon/worker.py:WorkerConfig.worker_pop_sample_index", "src/megatron/energon/worker.py:WorkerConfig.worker_activate", "src/megatron/energon/worker.py:WorkerConfig.worker_deactivate"]}
{"id": "C09", "title": "Resumed loaders continue with the worker whose turn it was", "statement": "After restoring a data loader state in which worker k was next, the first batch comes from the logical worker k, then k+1, and so on cyclically, i.e. the worker order of the resumed run is the one of the uninterrupted run.", "quantifier": "every number of workers and every k", "why_tests_cant": "is true for one and two workers and for k=0, which are the configurations a test uses; fails for three workers", "anchors": ["src/megatron/energon/worker.py:WorkerConfig.rank_worker_id", "src/megatron/energon/savable_loader.py:SavableDataLoader.restore_state_rank"]}
{"id": "C10", "title": "Shuffle buffer emits a permutation", "statement": "The shuffle buffer emits exactly the samples of its source, each as often as the source does, for a finite source; and it never holds more samples than its configured size, so a sample is emitted at most size-1 positions early.", "quantifier": "every finite source, every buffer size, every random number generator behaviour", "why_tests_cant": "quantifies over all random choices and all stream lengths", "anchors": ["src/megatron/energon/wrappers/shuffle_buffer_dataset.py:ShuffleBufferDataset.__iter__"]}
{"id": "C11", "title": "Shuffle buffer resumes exactly", "statement": "Saving the state of a shuffled dataset between any two samples and restoring it in a fresh process yields exactly the samples (with contents, keys and order) that the uninterrupted run yields from there on, provided the source dataset has this property and restores samples by key.", "quantifier": "every source, every buffer size, every generator, every save point, every continuation length, also repeated save/restore", "why_tests_cant": "all save points of all runs", "anchors": ["src/megatron/energon/wrappers/shuffle_buffer_dataset.py:ShuffleBufferDataset", "src/megatron/energon/wrappers/buffer.py:SavableSampleBuffer", "src/megatron/energon/rng.py:WorkerRng"]}
{"id": "C12", "title": "Filtering, logging and garbage collection wrappers are faithful and resume exactly", "statement": "A filtered dataset yields exactly the samples of its source satisfying the predicate in order; the log and gc wrappers change nothing; all resume exactly whenever their source does.", "quantifier": "every source, predicate, save point and continuation", "why_tests_cant": "all save points of all runs", "anchors": ["src/megatron/energon/wrappers/filter_dataset.py:FilterDataset", "src/megatron/energon/wrappers/gc_dataset.py:GcDataset", "src/megatron/energon/wrappers/log_sample_dataset.py:LogSampleDataset"]}
{"id": "C13", "title": "Mapping with a plain function is faithful, isolates failing samples and resumes exactly", "statement": "A mapped dataset yields the images of the source samples in order; a sample for which the function raises an exception or asks to skip is dropped without affecting any other sample; the sample index passed to the function is the number of source samples seen so far; the dataset resumes exactly, including these indices.", "quantifier": "every source, every user function (including failing ones), every save point", "why_tests_cant": "all user functions and all save points", "anchors": ["src/megatron/energon/wrappers/map_dataset.py:MapDataset.__iter__"]}
{"id": "C14", "title": "Mapping with a generator function resumes exactly", "statement": "If the user function yields several samples per source sample, saving in the middle of such a group and restoring continues with the remaining samples of the group and gives user code the same sample index as the uninterrupted run.", "quantifier": "every source, every generator function, every save point inside a group", "why_tests_cant": "all save points inside all groups", "anchors": ["src/megatron/energon/wrappers/map_dataset.py:MapDataset.__iter__"]}
{"id": "C15", "title": "Blending draws faithfully from its parts", "statement": "In a blended dataset the subsequence of samples coming from one part is exactly the repeated stream of that part, in order, nothing skipped or duplicated; parts without any sample for this worker are never drawn; the blend never ends while some part has samples.", "quantifier": "every list of parts, every behaviour of the random generator, every prefix of the run", "why_tests_cant": "all random choices", "anchors": ["src/megatron/energon/wrappers/blend_dataset.py:BlendDataset.__iter__"]}
{"id": "C16", "title": "Blended datasets resume exactly", "statement": "Saving a blended dataset between any two samples and restoring it continues with the same sequence of parts and samples as the uninterrupted run.", "quantifier": "every list of resumable parts, every save point", "why_tests_cant": "all save points and all random choices", "anchors": ["src/megatron/energon/wrappers/blend_dataset.py:BlendDataset", "src/megatron/energon/wrappers/repeat_dataset.py:RepeatDataset", "src/megatron/energon/rng.py:WorkerRng"]}
{"id": "C17", "title": "Samples of a blended dataset can be restored from their key", "statement": "Restoring a sample from the restore key a blended dataset has put on it gives back this sample.", "quantifier": "every list of parts including parts that have no samples for the current worker", "why_tests_cant": "fails only if some part has no samples for this worker and precedes the drawn one", "anchors": ["src/megatron/energon/wrappers/blend_dataset.py:BlendDataset.restore_sample", "src/megatron/energon/wrappers/blend_dataset.py:BlendDataset.__iter__"]}
{"id": "C18", "title": "Limit delivers exactly the requested number", "statement": "A dataset limited to L samples delivers per pass min(L_w, available) samples in worker w, these being the first ones of the worker's stream, and the per worker limits L_w add up to exactly L.", "quantifier": "every limit, every number of workers, every source", "why_tests_cant": "all worker counts and limits", "anchors": ["src/megatron/energon/wrappers/limit_dataset.py:LimitDataset"]}
{"id": "C19", "title": "Limit resumes exactly", "statement": "Saving a limited dataset between two samples and restoring it continues exactly as the uninterrupted run.", "quantifier": "every resumable source, limit and save point", "why_tests_cant": "all save points", "anchors": ["src/megatron/energon/wrappers/limit_dataset.py:LimitDataset"]}
{"id": "C20", "title": "Virtual epochs cut the stream without losing samples", "statement": "Every pass over an epochized dataset yields exactly the worker's epoch length, the epoch lengths of the workers add up to the requested length, and concatenating successive passes gives the uncut (repeated) source stream: nothing is lost, repeated or reordered at an epoch boundary.", "quantifier": "every epoch length, every number of workers, every number of passes, every source", "why_tests_cant": "all epoch numbers and lengths", "anchors": ["src/megatron/energon/wrappers/epochize_dataset.py:EpochizeDataset"]}
{"id": "C21", "title": "Virtual epochs resume exactly", "statement": "Saving an epochized dataset between any two samples (also at the end of an epoch) and restoring it continues exactly as the uninterrupted run, including where the epochs end.", "quantifier": "every resumable source, epoch length and save point", "why_tests_cant": "all save points", "anchors": ["src/megatron/energon/wrappers/epochize_dataset.py:EpochizeDataset"]}
{"id": "C22", "title": "Repeat delivers the requested number of passes", "statement": "A dataset repeated n times yields its source's pass n times in a row, and repeated forever (no count) it never ends and yields pass after pass.", "quantifier": "every source and every n", "why_tests_cant": "unbounded number of repeats", "anchors": ["src/megatron/energon/wrappers/repeat_dataset.py:RepeatDataset"]}
{"id": "C23", "title": "Repeat resumes exactly", "statement": "Saving a repeated dataset between any two samples and restoring it continues exactly as the uninterrupted run, and in particular delivers the same total number of passes.", "quantifier": "every resumable source, every number of repeats (also infinite), every save point", "why_tests_cant": "all save points and repeat counts", "anchors": ["src/megatron/energon/wrappers/repeat_dataset.py:RepeatDataset"]}
{"id": "C24", "title": "Concatenation delivers and resumes exactly", "statement": "A concatenated dataset yields its parts one after the other; saving between any two samples and restoring continues exactly as the uninterrupted run.", "quantifier": "every list of parts and every save point", "why_tests_cant": "fails only when saving after the first part is exhausted", "anchors": ["src/megatron/energon/wrappers/concat_dataset.py:ConcatDataset"]}
{"id": "C25", "title": "Batching partitions the stream", "statement": "Concatenating the batches (before user batching code) gives the source samples in order; every batch has exactly batch_size samples except possibly the last one of a pass, which is dropped if and only if it is incomplete and drop_last is set.", "quantifier": "every source, batch size, drop_last", "why_tests_cant": "all stream lengths", "anchors": ["src/megatron/energon/wrappers/batch_dataset.py:BatchDataset.__iter__"]}
{"id": "C26", "title": "A failing batch affects only itself", "statement": "If user batching code raises an exception or asks to skip for one batch, all other batches are the same as if it had not failed, with restore keys that restore exactly them.", "quantifier": "every source and every batching function, failing on any set of batches", "why_tests_cant": "all failure patterns", "anchors": ["src/megatron/energon/wrappers/batch_dataset.py:BatchDataset.__iter__"]}
{"id": "C27", "title": "The announced number of batches is right", "statement": "The length reported by a batched dataset is the number of batches its workers yield together when the source delivers its announced number of samples, distributed over the workers as evenly as possible.", "quantifier": "every number of samples, batch size, worker count and drop_last", "why_tests_cant": "all arithmetic combinations", "anchors": ["src/megatron/energon/wrappers/batch_dataset.py:BatchDataset.__len__"]}
{"id": "C28", "title": "Grouped batches are homogeneous and lose nothing", "statement": "With grouping, every batch contains only samples of one group key and at most the group's batch size, in source order, and (unless drop_last) each source sample is in exactly one batch.", "quantifier": "every source, grouping function and batch sizes", "why_tests_cant": "all streams and groupings", "anchors": ["src/megatron/energon/wrappers/group_batch_dataset.py:GroupBatchDataset.__iter__"]}
{"id": "C29", "title": "Grouped batching resumes exactly", "statement": "Saving a grouped batch dataset between any two batches and restoring it continues exactly as the uninterrupted run, in particular partially filled groups survive.", "quantifier": "every source, grouping function and save point", "why_tests_cant": "all save points", "anchors": ["src/megatron/energon/wrappers/group_batch_dataset.py:GroupBatchDataset.restore_state"]}
{"id": "C30", "title": "Packing uses every sample exactly once", "statement": "If the user's packing function distributes the samples of the buffer to packs, every source sample ends up in exactly one emitted pack per pass; packs are emitted in the order the packing function gives them, and the buffer never exceeds its size.", "quantifier": "every source, buffer size and packing function that partitions its argument", "why_tests_cant": "all packing functions and stream lengths", "anchors": ["src/megatron/energon/wrappers/packing_dataset.py:PackingDataset.__iter__"]}
{"id": "C31", "title": "Packing resumes exactly", "statement": "Saving a packed dataset between any two packs and restoring it continues exactly as the uninterrupted run.", "quantifier": "every source, packing function and save point", "why_tests_cant": "all save points", "anchors": ["src/megatron/energon/wrappers/packing_dataset.py:PackingDataset", "src/megatron/energon/wrappers/packing_dataset.py:PackingDataset.merge_states"]}
{"id": "C32", "title": "Each epoch reads each slice exactly once", "statement": "In every epoch of the webdataset reader a worker reads each sample of its slices exactly once, whatever the shuffling, the number of parallel shard iterators, and the random choices; with shuffle_over_epochs = n the unit is n epochs and each sample is read exactly n times.", "quantifier": "every list of slices, every parallel count, every random generator behaviour", "why_tests_cant": "all interleavings chosen by the generator", "anchors": ["src/megatron/energon/flavors/webdataset/sample_loader.py:WebdatasetSampleLoaderDataset._shards_iter"]}
{"id": "C33", "title": "The webdataset reader resumes exactly", "statement": "Saving the reader's state between any two samples and restoring it in a fresh process continues with exactly the samples the uninterrupted run would have read, in the same order, across epoch ends.", "quantifier": "every list of slices, parallel count, generator and save point", "why_tests_cant": "all save points and interleavings", "anchors": ["src/megatron/energon/flavors/webdataset/sample_loader.py:WebdatasetSampleLoaderDataset"]}
{"id": "C34", "title": "Restore keys identify samples through the whole stack", "statement": "For every sample a stack of wrappers yields, restore_sample applied to the sample's restore key returns an equal sample.", "quantifier": "every nesting of the supported wrappers and every sample of every run", "why_tests_cant": "all nestings and runs", "anchors": ["src/megatron/energon/wrappers/base.py:BaseSingleWrapper.restore_sample", "src/megatron/energon/flavors/base_dataset.py:add_sample_restore_key", "src/megatron/energon/wrappers/batch_dataset.py:BatchDataset.restore_sample", "src/megatron/energon/wrappers/map_dataset.py:MapDataset.restore_sample"]}
{"id": "C35", "title": "The multi worker loader delivers worker streams round robin", "statement": "The sequence of batches from the data loader is the round robin interleaving of the workers' streams, independent of how the worker processes are scheduled and how many batches they prefetch.", "quantifier": "every number of workers, every schedule of workers and consumer", "why_tests_cant": "all schedules", "anchors": ["src/megatron/energon/savable_loader.py:SavableDataLoader.__iter__", "src/megatron/energon/savable_loader.py:SavableDatasetWrapper.__iter__"]}
{"id": "C36", "title": "Saving and restoring the multi worker loader is exact", "statement": "Saving the loader state after any number of delivered batches and restoring it into a fresh loader delivers exactly the remaining batches of the uninterrupted run, although the workers have prefetched further batches.", "quantifier": "every number of workers, every save point, every prefetch state, every time-based checkpoint pattern", "why_tests_cant": "all save points x prefetch states x timer behaviours", "anchors": ["src/megatron/energon/savable_loader.py:SavableDataLoader.save_state_rank", "src/megatron/energon/savable_loader.py:SavableDatasetWrapper.get_checkpoint", "src/megatron/energon/savable_loader.py:SavableDatasetWrapper.__iter__"]}
{"id": "C37", "title": "A worker keeps a usable checkpoint for what it has prefetched", "statement": "Whenever the main process asks a worker for a state at one of the samples that may still be in flight, the worker has a checkpoint not younger than this sample, so that the state can be reconstructed by skipping.", "quantifier": "every timer behaviour, every history of samples", "why_tests_cant": "all timings", "anchors": ["src/megatron/energon/savable_loader.py:SavableDatasetWrapper._store_checkpoint", "src/megatron/energon/savable_loader.py:SavableDatasetWrapper.get_checkpoint"]}
{"id": "C38", "title": "Sample index files round trip and are published atomically", "statement": "Reading back the offset of sample i from an index file gives the offset written for sample i, for every i up to and including the end marker; and if the writer crashes at any point, readers find either no index file or the complete one.", "quantifier": "every list of offsets below 2^64, every crash point", "why_tests_cant": "all crash points", "anchors": ["src/megatron/energon/flavors/webdataset/itar.py:TarIndexReader", "src/megatron/energon/flavors/webdataset/itar.py:TarIndexWriter"]}
{"id": "C39", "title": "Reading a slice by byte offsets yields exactly the samples of that slice", "statement": "With an index created by dataset preparation, reading samples a .. a+n of a tar file through its byte range yields exactly the samples number a .. a+n-1 that a sequential read of the whole file yields.", "quantifier": "every tar layout (member names and sizes), every slice", "why_tests_cant": "all archive layouts", "anchors": ["src/megatron/energon/flavors/webdataset/prepare.py:WebdatasetPreparator._preprocess_tar", "src/megatron/energon/flavors/webdataset/itar.py:get_itar_byte_offset", "src/megatron/energon/flavors/webdataset/single_shard_reader.py:WebdatasetSampleLoaderShardReader"]}
{"id": "C40", "title": "A sub file view behaves like the byte range as a file", "statement": "Any sequence of read, seek and tell on a byte range of a shard gives the same results as on a file containing just these bytes.", "quantifier": "every file content, range, and sequence of operations", "why_tests_cant": "all operation sequences", "anchors": ["src/megatron/energon/flavors/webdataset/itar.py:SubFileReader"]}
{"id": "C41", "title": "Reading through the retrying stream returns the requested data", "statement": "If a remote read fails or comes back short and is retried, the caller gets exactly the bytes it asked for, or an error.", "quantifier": "every content, every sequence of short reads and failures", "why_tests_cant": "all failure histories", "anchors": ["src/megatron/energon/retry_stream.py:RetryReadStream.read"]}
{"id": "C42", "title": "Excluded samples do not shift restore keys", "statement": "When individual samples are excluded by the split configuration, the restore key of each remaining sample still restores this sample.", "quantifier": "every shard and every set of excluded keys", "why_tests_cant": "all exclusion sets", "anchors": ["src/megatron/energon/flavors/webdataset/single_shard_reader.py:WebdatasetSampleLoaderShardReader.read_next", "src/megatron/energon/flavors/webdataset/sample_loader.py:WebdatasetSampleLoaderDataset.restore_sample"]}
{"id": "C43", "title": "Dataset preparation assigns every shard to exactly one split", "statement": "Splitting by ratios assigns each shard to exactly one split part, and no shard is dropped, whatever the ratios.", "quantifier": "every number of shards and every list of ratios, in the floating point arithmetic used", "why_tests_cant": "rounding errors occur for particular ratios and counts only", "anchors": ["src/megatron/energon/flavors/webdataset/prepare.py:WebdatasetPreparator.prepare_dataset"]}
{"id": "C44", "title": "Nested blend weights are normalised", "statement": "The absolute sampling weights of the leaves of a (nested) metadataset blend add up to one and each leaf's weight is the product of the relative weights on its path.", "quantifier": "every tree of blends with positive weights", "why_tests_cant": "all nestings", "anchors": ["src/megatron/energon/metadataset/metadataset_v2.py:MetadatasetBlend.get_datasets", "src/megatron/energon/metadataset/metadataset.py:Metadataset.get_datasets"]}
{"id": "C45", "title": "Outer dataset options override inner ones", "statement": "Subflavors given at an outer level of a metadataset win over those of inner levels key by key, and a split part given at an inner level wins over the outer one.", "quantifier": "every nesting and every assignment of options", "why_tests_cant": "all nestings", "anchors": ["src/megatron/energon/metadataset/dataset_loader.py:DatasetLoader.get_datasets", "src/megatron/energon/metadataset/metadataset_v2.py:DatasetReference.get_datasets"]}
{"id": "C46", "title": "Stateless user functions are isolated and reproducible", "statement": "A user function marked stateless with restore_seeds sees random numbers depending only on the worker seed and the sample index, and the global random state after the call (also if it raises) is the one before; restoring a sample in another process sees the same random numbers.", "quantifier": "every function, every history of random numbers, every sequence of calls", "why_tests_cant": "all histories of calls", "anchors": ["src/megatron/energon/task_encoder/base.py:stateless"]}
{"id": "C47", "title": "Crude samples are cooked by the first matching cooker", "statement": "A crude sample is given to the first registered cooker all of whose constraints it satisfies, and if no cooker matches an error is raised.", "quantifier": "every list of cookers, every sample", "why_tests_cant": "all combinations of constraints", "anchors": ["src/megatron/energon/task_encoder/cooking.py:Cooker.is_match", "src/megatron/energon/task_encoder/base.py:TaskEncoder.cook_crude_sample"]}
{"id": "C48", "title": "Path composition never escapes its root", "statement": "Joining a relative path to an absolute path yields an absolute normalised path, '..' steps are resolved and can never climb above the root (error instead); normalising twice changes nothing.", "quantifier": "every path", "why_tests_cant": "all paths", "anchors": ["src/megatron/energon/epathlib/epath.py:EPath._resolve", "src/megatron/energon/epathlib/epath.py:EPath.__truediv__"]}
{"id": "C49", "title": "Padding a batch preserves every sample", "statement": "Batching tensors of different sizes with padding yields a rectangular batch in which each sample's values are found unchanged at their position and all other entries are the padding value.", "quantifier": "every list of shapes", "why_tests_cant": "all shapes and batch sizes", "anchors": ["src/megatron/energon/task_encoder/base.py:batch_pad_stack"]}
{"id": "C50", "title": "Merged image transforms are the composition of the transforms", "statement": "The single matrix applied by the merged transform maps every point as applying the individual geometric transforms one after another, and the output size is the one of the last transform.", "quantifier": "every list of affine transforms, every point", "why_tests_cant": "all lists of transforms", "anchors": ["src/megatron/energon/transforms/merge.py:MergeTransform.forward", "src/megatron/energon/transforms/mappers.py:TransformMapper"]}
{"id": "C51", "title": "Batching resumes exactly", "statement": "Saving a batched dataset after any batch and restoring it in a new process continues with exactly the batches (contents and restore keys) of the uninterrupted run; only the report of the end of a pass may be missing if the state is saved after the last, incomplete batch of the pass. With an endless source the continuation is exact.", "quantifier": "every source that resumes exactly, every batch size, every batcher (also failing ones), every save point and history of saves", "why_tests_cant": "all save points of all histories", "anchors": ["src/megatron/energon/wrappers/batch_dataset.py:BatchDataset"]}
{"id": "C52", "title": "Mapping the sample stream is faithful, resumes and keeps restore keys", "statement": "A stateless stream mapping (iter_map) delivers for each source sample what the function yields for it, in order, an exception affecting only the source sample it is raised for; saving after any delivered sample and restoring continues with the uninterrupted run; each delivered sample can be restored from its key.", "quantifier": "every source, every stateless mapping function (yielding any number of samples per source sample, possibly raising), every save point", "why_tests_cant": "all functions and all save points", "anchors": ["src/megatron/energon/wrappers/iter_map_dataset.py:IterMapDataset"]}
{"id": "C53", "title": "The loader without worker processes resumes exactly", "statement": "With num_workers = 0, saving the loader after any number of batches and restoring it in a new process continues with exactly the batches of the uninterrupted run, including their restore keys and running numbers.", "quantifier": "every dataset that resumes exactly, every save point and history of saves", "why_tests_cant": "all save points of all histories", "anchors": ["src/megatron/energon/savable_loader.py:SimpleSavableDatasetWrapper"]}
{"id": "C54", "title": "Joined datasets combine the parts of one sample", "statement": "Each sample of a joined dataset consists of exactly one sample of each joined dataset, all with the same key; if the datasets have the same keys in the same order, all samples are delivered, in order.", "quantifier": "every set of tar files, every slice, every error handler, shards that agree or not", "why_tests_cant": "all shard contents and all positions of a disagreement", "anchors": ["src/megatron/energon/flavors/webdataset/sample_loader.py:_read_multicolumn_shard", "src/megatron/energon/flavors/webdataset/joined_webdataset.py:JoinedWebdatasetFactory"]}
{"id": "C55", "title": "Which files belong to one sample", "statement": "The samples of a shard are the maximal runs of consecutive files with the same base name; the base name is the path up to the first dot of its last component, the rest is the name of the part; files below a top directory named __..__ and files without a dot are ignored.", "quantifier": "every list of member names", "why_tests_cant": "all names and all orders of members", "anchors": ["src/megatron/energon/flavors/webdataset/config.py", "src/megatron/energon/flavors/webdataset/prepare.py:_preprocess_tar", "src/megatron/energon/flavors/webdataset/single_shard_reader.py:SingleShardReader"]}
{"id": "C56", "title": "Joined samples can be restored", "statement": "The restore key of each sample of a joined dataset restores this sample, from all of its parts.", "quantifier": "every joined dataset, every sample", "why_tests_cant": "all shards, slices and samples", "anchors": ["src/megatron/energon/flavors/webdataset/joined_webdataset.py:load_sample", "src/megatron/energon/flavors/webdataset/sample_loader.py:restore_sample", "src/megatron/energon/flavors/base_dataset.py:set_sample_restore_key"]}
{"id": "C57", "title": "Shuffle-over-epochs multipliers multiply along the path", "statement": "The effective shuffle-over-epochs multiplier of a dataset reached through nested metadatasets is the product of the multipliers on the path; -1 (shuffle over everything, for ever) on any level makes it -1.", "quantifier": "every nesting of metadatasets, references and joins, all multipliers", "why_tests_cant": "all nestings and depths", "anchors": ["src/megatron/energon/metadataset/metadataset_v2.py:DatasetReference", "src/megatron/energon/metadataset/metadataset_v2.py:MetadatasetJoin", "src/megatron/energon/metadataset/metadataset.py", "src/megatron/energon/metadataset/dataset_loader.py:DatasetLoader"]}
{"id": "C58", "title": "The split configuration given for a part is used", "statement": "A split_config given for a dataset in a metadataset determines which split file this dataset reads, for a single dataset and for each part of a join.", "quantifier": "every metadataset, every part, every split_config", "why_tests_cant": "all nestings of metadatasets", "anchors": ["src/megatron/energon/metadataset/metadataset_v2.py:DatasetReference", "src/megatron/energon/metadataset/metadataset_v2.py:MetadatasetJoin", "src/megatron/energon/metadataset/join_dataset_loader.py:JoinDatasetLoader"]}
{"id": "C59", "title": "A prepared dataset loads with the counted samples", "statement": "Every split part written by the preparation can be loaded: exactly the shards listed for the part and not excluded, in order, each with the number of samples counted; only a part without shards is refused. A missing sample count never occurs.", "quantifier": "every set of tar files (also broken or empty ones), every order after shuffling, every list of ratios and of excludes", "why_tests_cant": "all combinations of shards, parts and excludes", "anchors": ["src/megatron/energon/flavors/webdataset/prepare.py:WebdatasetPreparator.prepare_dataset", "src/megatron/energon/flavors/webdataset/metadata.py:WebdatasetMeta.from_config"]}
{"id": "C60", "title": "Default batching keeps every field of every sample", "statement": "The default batching of structured samples (dicts, dataclasses, named tuples, nested) yields a structure in which the entry at each path of fields is made of exactly the entries of the samples at this path, in order; no field of a sample is lost.", "quantifier": "every list of samples, every nesting and set of fields", "why_tests_cant": "all structures and batch sizes", "anchors": ["src/megatron/energon/task_encoder/base.py:generic_batch", "src/megatron/energon/task_encoder/base.py:TaskEncoder._batch"]}
{"id": "C61", "title": "A path survives its textual form", "statement": "Reading the url of a path gives the same path on the same file system; different paths have different urls; the relative path to a directory, joined to this directory, gives the path back.", "quantifier": "every path, local or remote", "why_tests_cant": "all names and depths", "anchors": ["src/megatron/energon/epathlib/epath.py:EPath.url", "src/megatron/energon/epathlib/epath.py:EPath.__init__", "src/megatron/energon/epathlib/epath.py:EPath.relative_to"]}
{"id": "C62", "title": "Every shard has its own index file", "statement": "Two different shard files never share an index file, and the temporary file used while writing an index never collides with a shard or an index.", "quantifier": "every pair of shard names in a directory", "why_tests_cant": "all names", "anchors": ["src/megatron/energon/flavors/webdataset/itar.py:TarIndexWriter", "src/megatron/energon/epathlib/epath.py:EPath.with_suffix", "src/megatron/energon/tools/prepare.py"]}
{"id": "C63", "title": "One interpolation mode and one fill value for merged transforms", "statement": "Transforms are merged exactly if all interpolation modes they give agree and all fill values they give agree (an error otherwise); this mode (bilinear if none is given) and this value are used.", "quantifier": "every list of transforms", "why_tests_cant": "all lists of transforms", "anchors": ["src/megatron/energon/transforms/merge.py:MergeTransform.__init__"]}
{"id": "C64", "title": "The random resized crop stays inside of the image", "statement": "The box chosen for a random resized crop lies inside of the image and has at least one pixel.", "quantifier": "every image size, every range of aspect ratios, every sequence of random draws", "why_tests_cant": "all draws and sizes", "anchors": ["src/megatron/energon/transforms/mappers.py:RandomResizedCropMapper.get_params"]}
{"id": "C65", "title": "A whole training dataset resumes exactly", "statement": "For the dataset that get_train_dataset builds (any number of blended datasets, sharding, parallel shard readers, shuffle buffer, cooking, encoding, packing, batching, virtual epochs, logging): saving the state in a worker at any point and restoring it in a new process gives a dataset that delivers the same samples as the uninterrupted one, for ever.", "quantifier": "every composition of datasets and options, every worker, every point of saving, every history of earlier restores", "why_tests_cant": "the state is spread over all the layers, and each layer relies on guarantees of the one below; tests check a few compositions and points", "anchors": ["src/megatron/energon/task_encoder/base.py:TaskEncoder.build_train_datasets", "src/megatron/energon/task_encoder/base.py:TaskEncoder.build_batch", "src/megatron/energon/flavors/webdataset/base_webdataset.py:BaseWebdatasetFactory.build"]}
{"id": "C66", "title": "Every batch of a training or validation dataset is restored from its key", "statement": "restore_sample with the restore key of any batch that the assembled dataset delivered gives this batch again, if all functions of the task encoder are stateless.", "quantifier": "every composition of datasets and options, every worker, every delivered batch in every history", "why_tests_cant": "the keys are nested through all layers", "anchors": ["src/megatron/energon/task_encoder/base.py:TaskEncoder.build_train_datasets", "src/megatron/energon/task_encoder/base.py:TaskEncoder.build_val_datasets", "src/megatron/energon/task_encoder/base.py:TaskEncoder.build_batch"]}
{"id": "C67", "title": "A validation pass uses every sample exactly once", "statement": "In each pass over the validation dataset, over all ranks and workers together, every sample of every dataset is used exactly once; if samples are skipped, batches dropped or the number of batches limited, at most once.", "quantifier": "every list of datasets, every number of ranks and workers, every pass, all failures of user functions", "why_tests_cant": "all shard sizes, world sizes and passes", "anchors": ["src/megatron/energon/task_encoder/base.py:TaskEncoder.build_val_datasets", "src/megatron/energon/flavors/webdataset/sharder.py", "src/megatron/energon/wrappers/concat_dataset.py"]}
{"id": "C68", "title": "What validation delivers", "statement": "Every pass of a worker over the validation dataset delivers the same batches: the samples of this worker, dataset by dataset and in the order in which they are stored, cooked and encoded (without the skipped ones; generator functions give several samples), with packing: packed from buffers of the packing buffer size, put in order into batches of the batch size, or, with a group criterion, into batches of samples of one group in the order in which they are completed, and put through encode_batch; with a limit, the first batches of this list.", "quantifier": "every list of datasets, every number of ranks and workers, every pass, all user functions", "why_tests_cant": "all datasets, functions and passes", "anchors": ["src/megatron/energon/task_encoder/base.py:TaskEncoder.build_val_datasets", "src/megatron/energon/task_encoder/base.py:TaskEncoder.build_batch", "src/megatron/energon/wrappers/concat_dataset.py", "src/megatron/energon/wrappers/limit_dataset.py"]}
{"id": "C69", "title": "What training delivers, with interruptions", "statement": "All batches a training worker delivers, over any number of interruptions (saving the state and going on in a new process): each dataset's samples are taken from this worker's share only and, without replacement, all of the share once in each round; apart from fewer samples than the size of the shuffle buffer that are held back, each sample taken is loaded, cooked, encoded, (packed) and is in exactly one batch of exactly the batch size, in order (with groups: in the order in which the batches are completed). The shares of different workers are disjoint and cover the dataset.", "quantifier": "every list of datasets and options, every worker, every history of iterating, saving and restoring, all user functions, all random numbers", "why_tests_cant": "all histories, sizes, random numbers", "anchors": ["src/megatron/energon/task_encoder/base.py:TaskEncoder.build_train_datasets", "src/megatron/energon/task_encoder/base.py:TaskEncoder.build_batch", "src/megatron/energon/wrappers/blend_dataset.py", "src/megatron/energon/wrappers/shuffle_buffer_dataset.py", "src/megatron/energon/flavors/webdataset/sample_loader.py"]}
{"id": "C70", "title": "Field maps load what they describe", "statement": "In the field map of a dataset, a description made of alternatives part[key]...[key] separated by commas gives the value of the first alternative that exists in the sample; loading the field fails exactly if none exists. The loaded sample has for every mapped field exactly this value, the key and restore key of the file, and the subflavors of the dataset. Reading only the parts that are named by the field map gives the same sample.", "quantifier": "every sample (any nesting of dicts and lists), every field map, every selection of parts that keeps the named ones", "why_tests_cant": "all nestings, all descriptions", "anchors": ["src/megatron/energon/flavors/webdataset/field_access.py:split_field_access", "src/megatron/energon/flavors/webdataset/field_access.py:field_access", "src/megatron/energon/flavors/webdataset/default_generic_webdataset.py:DefaultGenericWebdatasetFactory"]}
{"id": "C71", "title": "Incomplete field maps are refused", "statement": "A field map is accepted only if all its names are fields of the sample type and every required field of the sample type gets a value; with an accepted field map every sample that has the named parts can be loaded.", "quantifier": "every sample type, every field map", "why_tests_cant": "all sets of required and optional fields", "anchors": ["src/megatron/energon/flavors/webdataset/default_generic_webdataset.py:DefaultGenericWebdatasetFactory.__init__"]}
{"id": "C72", "title": "Configurations are accepted exactly if they fit their type", "statement": "Reading a configuration into a typed structure (strict) succeeds exactly if it fits the annotation at every depth: required attributes present, no unknown attributes, each value of the annotated type; of a union, the first type that fits is used. The conversion always terminates.", "quantifier": "every raw configuration, every annotation (nested dataclasses, named tuples, unions, literals, lists, tuples, dicts)", "why_tests_cant": "all nestings and depths of types and data", "anchors": ["src/megatron/energon/typed_converter.py:raw_to_typed", "src/megatron/energon/flavors/webdataset/metadata.py:WebdatasetMeta.from_config"]}
{"id": "C73", "title": "A converted configuration has the annotated type", "statement": "What the conversion returns is a value of the annotated type at every depth.", "quantifier": "every raw configuration, every annotation, with and without imports, strict or not", "why_tests_cant": "all nestings of types and data", "anchors": ["src/megatron/energon/typed_converter.py:raw_to_typed", "src/megatron/energon/typed_converter.py:raw_to_instance"]}
{"id": "C74", "title": "Typed data survive writing and reading", "statement": "Typed data written as JSON and read with their annotation are the same again; in particular the metadata files of a prepared dataset are read as they were written.", "quantifier": "every annotation and every value of it; all shard counts, split parts and exclusions", "why_tests_cant": "all values and nestings", "anchors": ["src/megatron/energon/typed_converter.py:to_json_object", "src/megatron/energon/typed_converter.py:raw_to_typed", "src/megatron/energon/flavors/webdataset/prepare.py:WebdatasetPreparator.prepare_dataset"]}
{"id": "C75", "title": "A dataset is created with the settings of its configuration", "statement": "load_config creates the class named in the configuration (or the default class), each parameter having the value of the configuration file, or else of the caller, or else its default, converted to its annotation; no setting is ignored: unknown ones are passed on to **kwargs, or refused if the class takes none; a missing required one is refused.", "quantifier": "every configuration, all arguments of the caller, every class", "why_tests_cant": "all combinations of settings of file, caller and defaults", "anchors": ["src/megatron/energon/dataset_config.py:load_config", "src/megatron/energon/typed_converter.py:raw_to_instance", "src/megatron/energon/typed_converter.py:safe_call_function"]}
{"id": "C76", "title": "Positional arguments keep their order", "statement": "safe_call_function with a list passes the i-th element of the list as i-th argument.", "quantifier": "every function, every list of arguments", "why_tests_cant": "all numbers of arguments and types", "anchors": ["src/megatron/energon/typed_converter.py:safe_call_function"]}
{"id": "C77", "title": "Training never stalls", "statement": "If the user functions (loading, cooking, encoding, selecting and packing, batching) accept the samples, every call of next on a training dataset returns a sample, or, only if virtual epochs are used, the end of an epoch; it neither blocks for ever nor raises; in every worker and after any number of interruptions.", "quantifier": "all datasets, shardings, workers, task encoders, options; all histories of iterating, saving and resuming", "why_tests_cant": "an unbounded number of calls, all histories", "anchors": ["src/megatron/energon/task_encoder/base.py:TaskEncoder.build_train_datasets", "src/megatron/energon/flavors/webdataset/sample_loader.py:WebdatasetSampleLoaderDataset", "src/megatron/energon/wrappers/blend_dataset.py:BlendDataset", "src/megatron/energon/wrappers/shuffle_buffer_dataset.py:ShuffleBufferDataset", "src/megatron/energon/wrappers/packing_dataset.py:PackingDataset", "src/megatron/energon/wrappers/batch_dataset.py:BatchDataset"]}
{"id": "C78", "title": "An interrupted training run is the uninterrupted one", "statement": "A training loader with worker processes over the datasets of a task encoder, saved and restored any number of times at any point, delivers in total what the uninterrupted loader delivers, from each worker and in the same order: made of the samples of the share of this worker, each of them once per round; next always returns, and the state can always be saved.", "quantifier": "all datasets, shardings, numbers of workers, task encoders, options; all schedules of the processes, timers of the checkpoints and points of saving", "why_tests_cant": "all interleavings of the processes and all histories", "anchors": ["src/megatron/energon/savable_loader.py:SavableDataLoader", "src/megatron/energon/savable_loader.py:SavableDatasetWrapper", "src/megatron/energon/task_encoder/base.py:TaskEncoder.build_train_datasets", "src/megatron/energon/loader.py:get_savable_loader"]}
{"id": "C79", "title": "Validation through a loader sees every sample once per loop", "statement": "Every complete for loop over a validation loader (get_loader or get_savable_loader) with any number of worker processes comes to its end; in each loop, over all ranks, every sample of the datasets is used exactly once (at most once with limits, dropped batches or skipped samples), in the second and later loops like in the first; the samples of the workers of a rank come in turns, independently of how the processes are scheduled.", "quantifier": "all datasets, numbers of ranks and workers, task encoders, options; all schedules of the worker processes; any number of loops", "why_tests_cant": "all interleavings of the processes, any number of loops", "anchors": ["src/megatron/energon/loader.py:get_loader", "src/megatron/energon/loader.py:get_savable_loader", "src/megatron/energon/savable_loader.py:BasicDataLoader", "src/megatron/energon/savable_loader.py:SimpleSavableDatasetWrapper", "src/megatron/energon/savable_loader.py:SavableDatasetWrapper", "src/megatron/energon/task_encoder/base.py:TaskEncoder.build_val_datasets"]}
{"id": "C80", "title": "A loop may be left early", "statement": "A for loop over a loader may be left at any sample (break, or an exception of user code): the loops after it go on with the next sample. Over all loops together the samples delivered are the ones of an uninterrupted loop, in the same order, none lost, none twice; also if states are saved and restored in between.", "quantifier": "all datasets, task encoders, options, worker configurations; all histories of taking samples, ending, leaving, saving and restoring", "why_tests_cant": "all points of leaving in all histories of loops; all schedules of the worker processes", "anchors": ["src/megatron/energon/savable_loader.py:SavableDataLoader.__iter__", "src/megatron/energon/savable_loader.py:BasicDataLoader.__iter__", "src/megatron/energon/wrappers/epochize_dataset.py:EpochizeDataset", "src/megatron/energon/wrappers/concat_dataset.py:ConcatDataset", "src/megatron/energon/wrappers/packing_dataset.py:PackingDataset", "src/megatron/energon/wrappers/map_dataset.py:MapDataset", "src/megatron/energon/wrappers/batch_dataset.py:BatchDataset", "src/megatron/energon/flavors/webdataset/sample_loader.py:WebdatasetSampleLoaderDataset"]}
{"id": "C81", "title": "A distributed job resumes on every rank", "statement": "save_state, called on all ranks, hands the states of all ranks, in the order of the ranks, to every rank (or to dst_rank); restore_state with that list (on all ranks, or with src_rank only on that one) brings every rank back to the state it saved itself, also if it is saved again before the first sample; so every rank of a job interrupted any number of times sees what it would have seen without interruptions.", "quantifier": "all numbers of ranks, process groups, datasets, positions of the ranks, histories of interruptions", "why_tests_cant": "all group layouts and histories; the ranks are at arbitrary, different positions", "anchors": ["src/megatron/energon/savable_loader.py:SavableDataLoader.save_state", "src/megatron/energon/savable_loader.py:SavableDataLoader.restore_state", "src/megatron/energon/savable_loader.py:SavableDataLoader.save_state_rank", "src/megatron/energon/savable_loader.py:SavableDataLoader.restore_state_rank"]}
{"id": "C82", "title": "Mixed batches are made of consecutive drawn samples", "statement": "MixBatchDataset draws from its datasets with the given weights, each dataset delivering its samples in order, and delivers batch_mix_fn of consecutive runs of exactly batch_size drawn samples, none lost; it never ends and resumes exactly. homogeneous_concat_mix joins the fields of the batches: tensors are concatenated and padded as if all the samples had been put into one batch, every other field keeps one entry for each sample; batches of different types are returned as a list. Mixed batches can be restored from their keys if the function is stateless.", "quantifier": "all datasets, weights, batch sizes, mix functions, random numbers; all tensors and nested structures", "why_tests_cant": "all shapes, nestings and histories", "anchors": ["src/megatron/energon/wrappers/mix_batch_dataset.py:MixBatchDataset", "src/megatron/energon/wrappers/mix_batch_dataset.py:concat_pad", "src/megatron/energon/wrappers/mix_batch_dataset.py:generic_concat", "src/megatron/energon/wrappers/mix_batch_dataset.py:homogeneous_concat_mix"]}
{"id": "C83", "title": "Restoring is refused unless every function is stateless", "statement": "If one of the functions of a task encoder (cooking, encoding, packing, batching, encode_batch) is not declared stateless, or there is a group criterion, restore_sample raises for the key of every batch; it never returns something that may differ from the batch.", "quantifier": "all task encoders, options, datasets, workers and keys", "why_tests_cant": "all combinations of functions and all keys", "anchors": ["src/megatron/energon/wrappers/map_dataset.py:MapDataset.restore_sample", "src/megatron/energon/wrappers/iter_map_dataset.py:IterMapDataset.restore_sample", "src/megatron/energon/wrappers/batch_dataset.py:BatchDataset.assert_can_restore", "src/megatron/energon/wrappers/group_batch_dataset.py:GroupBatchDataset.assert_can_restore", "src/megatron/energon/wrappers/packing_dataset.py:PackingDataset.assert_can_restore"]}
{"id": "C84", "title": "Batch functions that yield several samples", "statement": "With a generator function as batch function, BatchDataset delivers, for one batch of consecutive samples after the other, what the function yields for it, in order, each with the key of its batch and its number in it; the samples are restored from these keys; saved at any point, also in the middle of a batch, and restored from this state later, it goes on with the next sample.", "quantifier": "all generator functions, batch sizes, source datasets; all points of saving and restoring, however long the state is kept before", "why_tests_cant": "all lengths of passes and batches, all points of saving; the state objects stay in memory while the run goes on", "anchors": ["src/megatron/energon/wrappers/batch_dataset.py:BatchDataset.__iter__", "src/megatron/energon/wrappers/batch_dataset.py:BatchDataset.save_state", "src/megatron/energon/wrappers/batch_dataset.py:BatchDataset.restore_sample", "src/megatron/energon/savable_loader.py:SavableDatasetWrapper._store_checkpoint"]}
{"id": "C85", "title": "energon lint finds the faults of a dataset", "statement": "energon lint of a dataset directory exits with success exactly if the index of every shard has the number of samples of the metadata and all samples of the given split parts are read and loaded without an exception, with every number of worker processes; split parts without shards are left out.", "quantifier": "all datasets, outcomes of reading and loading, split parts, numbers of worker processes, distributions of the samples over them", "why_tests_cant": "all contents of datasets and all numbers of processes; the processes do not share memory", "anchors": ["src/megatron/energon/tools/lint.py:command", "src/megatron/energon/tools/lint.py:check_index", "src/megatron/energon/flavors/webdataset/error_handler.py:ErrorHandler"]}
{"id": "C86", "title": "The error handler is told what failed", "statement": "The handler passed to a dataset is called exactly once for each file that cannot be read and each sample that cannot be loaded, in order, with the exception and the key of the sample; all samples that load are delivered, in order. An exception that is never handled ends the iteration.", "quantifier": "all sequences of samples and outcomes of reading and loading", "why_tests_cant": "all combinations and orders of failures", "anchors": ["src/megatron/energon/flavors/webdataset/error_handler.py:ErrorHandler.error_handler", "src/megatron/energon/flavors/webdataset/error_handler.py:ErrorHandler.sample_error_handler", "src/megatron/energon/flavors/webdataset/single_shard_reader.py:SingleShardReader.read_next", "src/megatron/energon/flavors/webdataset/base_webdataset.py:BaseWebdatasetFactory.build"]}
{"id": "C87", "title": "Saving with worker processes always returns and sees each worker between two samples", "statement": "Saving the state of a loader with worker processes always returns, in whatever order the threads run: there is no deadlock between fetching samples and executing commands. It gets one answer of each worker, to this call and not to an earlier one, and each worker answers between two samples, never in the middle of fetching one: after all the samples the caller has got of it and at most two more.", "quantifier": "all numbers of workers, all interleavings of the steps of the main process, the generators and the command threads, all numbers of calls and samples", "why_tests_cant": "all interleavings of the threads of all processes; a race shows up in few of them", "anchors": ["src/megatron/energon/savable_loader.py:SavableDatasetWrapper._command_thread", "src/megatron/energon/savable_loader.py:SavableDatasetWrapper.__iter__", "src/megatron/energon/savable_loader.py:SavableDataLoader._worker_command", "src/megatron/energon/savable_loader.py:SavableDataLoader.save_state_rank"]}
{"id": "C88", "title": "A worker is said to have no samples only if it has none", "statement": "worker_has_samples, by which blending leaves out parts and repeating checks that it can go on, is False for a dataset in a worker only if this worker never gets a sample of it, whatever has been saved and restored; a blend or concatenation has samples exactly if a part has, the reader exactly if the index of one of its slices counts a sample. It is True only if the worker can get a sample.", "quantifier": "all wrappers, all source datasets, numbers of workers, histories of iterating, saving and restoring", "why_tests_cant": "all stacks of wrappers, all numbers of workers and lengths, all histories", "anchors": ["src/megatron/energon/wrappers/base.py:BaseSingleWrapperDataset.worker_has_samples", "src/megatron/energon/wrappers/blend_dataset.py:BlendDataset.worker_has_samples", "src/megatron/energon/wrappers/concat_dataset.py:ConcatDataset.worker_has_samples", "src/megatron/energon/wrappers/limit_dataset.py:LimitDataset.worker_has_samples", "src/megatron/energon/wrappers/repeat_dataset.py:RepeatDataset.__iter__", "src/megatron/energon/flavors/webdataset/sample_loader.py:WebdatasetSampleLoaderDataset.worker_has_samples"]}
{"id": "C89", "title": "restore_state(None) starts over", "statement": "After restore_state(None), called at any point, a dataset delivers exactly what a newly built one delivers: the same samples with the same restore keys, the same ends of passes and errors. A limited dataset, which resets its source after each pass, and so every validation set with a limit, delivers the same in every pass.", "quantifier": "all wrappers, source datasets, user functions, task encoders, points of calling restore_state(None), histories of saving and restoring before", "why_tests_cant": "all histories; the comparison is between infinite streams of samples", "anchors": ["src/megatron/energon/wrappers/base.py:BaseSingleWrapperDataset.restore_state", "src/megatron/energon/wrappers/base.py:SampleIndex.restore_state", "src/megatron/energon/wrappers/limit_dataset.py:LimitDataset.__iter__", "src/megatron/energon/wrappers/group_batch_dataset.py:GroupBatchDataset.restore_state", "src/megatron/energon/rng.py:WorkerRng.restore_state", "src/megatron/energon/task_encoder/base.py:TaskEncoder.build_val_datasets"]}
{"id": "C90", "title": "Ranks get balanced shares", "statement": "Over all datasets loaded together, the numbers of samples owned by any two ranks (each with all its workers) differ by at most one.", "quantifier": "every list of dataset sizes, every number of ranks and of workers per rank, every pair of ranks", "why_tests_cant": "unbounded parameter space; the sequence by which remainders are assigned is recursive", "anchors": ["src/megatron/energon/flavors/webdataset/sharder.py:Sharder._generalized_bit_reversal", "src/megatron/energon/flavors/webdataset/sharder.py:Sharder.shard_workers", "src/megatron/energon/task_encoder/base.py:TaskEncoder.build_train_datasets"]}
{"id": "C91", "title": "Samples made from other samples keep their fields", "statement": "Joining samples into a sample class gives every field of every part: key, restore key and subflavors are those of the primary sample, any other field that of the last part that has it. derive_from keeps key, restore key and subflavors and sets the given fields; extend keeps all fields that are not given; the default task encoder converts samples and batches field by field. Each fails exactly if a field has no place in the class or no value.", "quantifier": "all sample classes, defaults, samples, numbers of parts (with missing ones), given fields", "why_tests_cant": "all classes and combinations of overlapping fields", "anchors": ["src/megatron/energon/flavors/base_dataset.py:Sample.from_joined", "src/megatron/energon/flavors/base_dataset.py:Sample.derive_from", "src/megatron/energon/flavors/base_dataset.py:ExtendableDataclassMixin.extend", "src/megatron/energon/task_encoder/base.py:DefaultTaskEncoder.encode_sample", "src/megatron/energon/task_encoder/base.py:DefaultTaskEncoder.encode_batch"]}
{"id": "C92", "title": "Debug logs are kept, one file for each process", "statement": "With a worker_debug_path that contains {worker_id} and {pid}, every entry written to the debug logs is found there afterwards, in order, in one file for each process; also without {pid} the main processes and the workers of all ranks write to different files.", "quantifier": "all numbers of ranks and workers, restored worker offsets, orders of log calls in all processes", "why_tests_cant": "all interleavings of log calls of all processes; files are reopened depending on what was logged before", "anchors": ["src/megatron/energon/worker.py:WorkerConfig.worker_log", "src/megatron/energon/worker.py:WorkerConfig.rank_worker_id", "src/megatron/energon/savable_loader.py:SavableDatasetWrapper.restore_sample", "src/megatron/energon/flavors/webdataset/single_shard_reader.py:SingleShardReader.__init__"]}
{"id": "C93", "title": "A saved state can be restored more than once", "statement": "Without worker processes: a state that was saved is restored, the loader is iterated for any time, and the same state object is restored again in a new loader with the same datasets: it delivers what the first one delivered, the same samples with the same restore keys and the same ends of passes.", "quantifier": "all stacks of datasets, saved states, numbers of samples delivered after the first restore", "why_tests_cant": "all stacks, histories and lengths; the comparison is between infinite streams", "anchors": ["src/megatron/energon/savable_loader.py:SavableDataLoader.restore_state_rank", "src/megatron/energon/wrappers/base.py:SampleIndex.restore_state", "src/megatron/energon/wrappers/buffer.py:SavableSampleBuffer.restore_state", "src/megatron/energon/wrappers/epochize_dataset.py:EpochizeDataset.restore_state", "src/megatron/energon/wrappers/limit_dataset.py:LimitDataset.restore_state", "src/megatron/energon/wrappers/repeat_dataset.py:RepeatDataset.restore_state", "src/megatron/energon/flavors/webdataset/sample_loader.py:WebdatasetSampleLoaderDataset.restore_state"]}
{"id": "C94", "title": "A loader in use can be set back", "statement": "Without worker processes: restoring a state in a loader that has already delivered samples, also in the middle of a pass, gives exactly what restoring it in a new loader gives, and the states saved afterwards continue where this loader is.", "quantifier": "all stacks of datasets, states, points of restoring, numbers of restores", "why_tests_cant": "all histories of iterating, saving and restoring; generators that are suspended at any point", "anchors": ["src/megatron/energon/savable_loader.py:SimpleSavableDatasetWrapper.__iter__", "src/megatron/energon/savable_loader.py:SavableDataLoader.restore_state_rank", "src/megatron/energon/wrappers/epochize_dataset.py:EpochizeDataset.__iter__", "src/megatron/energon/wrappers/epochize_dataset.py:EpochizeDataset.restore_state", "src/megatron/energon/flavors/webdataset/sample_loader.py:WebdatasetSampleLoaderDataset._shards_iter"]}
{"id": "C95", "title": "Metadatasets can be moved with what they refer to", "statement": "Relative paths in a metadataset file start at the directory of this file, also if it is included by another file: a tree of metadatasets and datasets that refer to each other by relative paths can be copied to another directory or remote, and loading it there gives the same. A metadataset can be loaded exactly if all references, of all splits, lead to datasets, or to metadatasets that can be loaded, and not in circles; what is loaded is determined by the files alone.", "quantifier": "all trees of files, nesting depths, references, directories and remotes, arguments of the loading functions", "why_tests_cant": "unbounded trees of files; all relative paths", "anchors": ["src/megatron/energon/metadataset/metadataset.py:MetadatasetDataset.prepare", "src/megatron/energon/metadataset/metadataset.py:DatasetReference.prepare", "src/megatron/energon/metadataset/metadataset_v2.py:MetadatasetV2.__post_init__", "src/megatron/energon/metadataset/metadataset_v2.py:DatasetReference.prepare", "src/megatron/energon/metadataset/metadataset_v2.py:DatasetJoiner.prepare", "src/megatron/energon/metadataset/loader.py:load_dataset"]}
{"id": "C96", "title": "The arguments for loading apply to every dataset that is loaded", "statement": "split_part, subflavor, subflavors, dataset_config and split_config given to get_train_dataset or get_val_dataset apply to the dataset that is loaded, and, if the path is that of a metadataset, to all datasets of it.", "quantifier": "all files, nesting depths, combinations of arguments", "why_tests_cant": "unbounded nesting; all combinations of arguments and configuration files", "anchors": ["src/megatron/energon/task_encoder/loader.py:get_train_dataset", "src/megatron/energon/task_encoder/loader.py:get_val_dataset", "src/megatron/energon/task_encoder/loader.py:_split_kwargs", "src/megatron/energon/metadataset/loader.py:load_dataset"]}
{"id": "C97", "title": "A part filter only removes parts", "statement": "With a part_filter the dataset delivers the same samples in the same order, with the same keys, restore keys and positions; each has exactly the parts the filter accepts and that could be read. A failing part is left out if the handler returns; otherwise the samples before are delivered and then the exception is raised. Restoring a sample by its key gives the sample that was delivered.", "quantifier": "all shards, slices, part filters, failures of reading, handlers", "why_tests_cant": "all files and filters, also filters that reject all parts of a sample", "anchors": ["src/megatron/energon/flavors/webdataset/single_shard_reader.py:SingleShardReader.read_next", "src/megatron/energon/flavors/webdataset/sample_loader.py:WebdatasetSampleLoaderDataset.restore_sample"]}
{"id": "C98", "title": "Python files of datasets are evaluated once", "statement": "A sample_loader or part_filter given as 'file:function' is the function of this name of the file in the .nv-meta directory of the dataset, local or remote; without a function name the default name is taken. In one process each file is evaluated at most once without an exception: all datasets get the same function objects, from the content of the file when it was first asked for and could be evaluated, whatever happens to the file afterwards; a file that could not be evaluated is tried again. Without a relative path the current directory is used.", "quantifier": "all strings, directories and remotes, all histories of asking for functions and of changes of the files", "why_tests_cant": "all histories and file contents; function objects are shared between datasets", "anchors": ["src/megatron/energon/module_loader.py:ModuleLoader.get_function", "src/megatron/energon/module_loader.py:ModuleLoader.__getitem__", "src/megatron/energon/module_loader.py:ModuleLoader._load_module", "src/megatron/energon/flavors/webdataset/default_generic_webdataset.py:DefaultGenericWebdataset.__init__"]}
{"id": "C99", "title": "The heatmap of analyze-debug counts every logged sample once", "statement": "energon analyze-debug counts each key of each batch in the logs of the loader once, at the row of its number (in the order of first occurrence) and the column of its step, both divided by the smallest powers of two for which everything fits into the given size, in the colour of its log; everything counted is in the saved image. --skip leaves out the first steps; without keys of batches, or with --force-loading-order, the same is done for the order of loading.", "quantifier": "all numbers and contents of logs, sizes of the heatmap, numbers of samples and steps", "why_tests_cant": "unbounded logs; the heatmap is rescaled in place an unbounded number of times", "anchors": ["src/megatron/energon/tools/analyze_debug.py:AutosizingHeatmapWriter.add", "src/megatron/energon/tools/analyze_debug.py:AutosizingHeatmapWriter.save", "src/megatron/energon/tools/analyze_debug.py:LoaderLogIter.log_entries", "src/megatron/energon/tools/analyze_debug.py:command", "src/megatron/energon/tools/analyze_debug.py:_iter_sl_log_line_keys"]}
{"id": "C100", "title": "The debug logs name the samples that are delivered", "statement": "For everything a loader delivers, samples, batches, dicts with keys, and lists of these, the debug log contains the keys of exactly the samples in it.", "quantifier": "all values delivered by loaders", "why_tests_cant": "all shapes of user-defined samples and batches", "anchors": ["src/megatron/energon/wrappers/log_sample_dataset.py:default_get_keys", "src/megatron/energon/savable_loader.py:SavableDataLoader.__iter__", "src/megatron/energon/savable_loader.py:BasicDataLoader.__iter__"]}
{"id": "C101", "title": "energon info describes what is loaded", "statement": "energon info prints, for a prepared dataset, for each split part the number of shards and of samples that loading this part gives, the share of all samples (rounded), the total numbers, and the total size of the shards with the largest fitting unit.", "quantifier": "all shard counts, split.yaml files (with excluded shards, brace patterns), file sizes", "why_tests_cant": "all configuration files and sizes; rounding of doubles", "anchors": ["src/megatron/energon/tools/info.py:command", "src/megatron/energon/tools/info.py:fmt_size", "src/megatron/energon/flavors/webdataset/base_webdataset.py:BaseWebdatasetFactory"]}
{"id": "C102", "title": "What the dialog of energon prepare writes can be loaded", "statement": "Whatever parts were found in the shards, whatever sample type is chosen (or crude samples) and whatever is answered: when the dialog of energon prepare ends, the written dataset.yaml is accepted when the dataset is loaded, every part asked for is one that was found, and the constructor of the sample class gets exactly its arguments. With a sample loader the written part filter keeps the parts that were found.", "quantifier": "all sets of parts, sample classes, sequences of answers", "why_tests_cant": "all sequences of answers, including rejected and unusual ones", "anchors": ["src/megatron/energon/tools/prepare.py:command", "src/megatron/energon/flavors/webdataset/default_generic_webdataset.py:DefaultGenericWebdataset.__init__", "src/megatron/energon/flavors/webdataset/field_access.py"]}
{"id": "C103", "title": "What energon prepare finds in the shards is in them", "statement": "energon prepare lists exactly the shards that could be processed and contain a sample, with their number of samples, each with an index; the kinds of parts it reports occur in these shards, all of them if fewer than fifty are reported; the samples it shows are the samples of the shards, in order, with the parts they have when loaded.", "quantifier": "all tar files, numbers of shards, failures while reading or completing the index", "why_tests_cant": "all contents of files and all points of failure", "anchors": ["src/megatron/energon/flavors/webdataset/prepare.py:WebdatasetPreparator._preprocess_tar", "src/megatron/energon/flavors/webdataset/prepare.py:WebdatasetPreparator.iter_dataset_content", "src/megatron/energon/flavors/webdataset/prepare.py:WebdatasetPreparator.prepare_dataset"]}
{"id": "C104", "title": "Virtual epochs through a loader", "statement": "For a training dataset that always delivers a next batch: with virtual_epoch_length=L every complete for loop over a training loader of a rank, with any number of worker processes and in any schedule, delivers exactly L batches and ends, and the next loop can be made. The batches of the workers come strictly in turns. Each worker goes on in the next loop where it was: over all loops its batches are those of the dataset without virtual epochs, none lost and none repeated.", "quantifier": "all datasets, task encoders, epoch lengths, ranks, numbers of workers and of loops, schedules of the worker processes", "why_tests_cant": "unbounded numbers of loops and all interleavings of processes", "anchors": ["src/megatron/energon/task_encoder/base.py:TaskEncoder.build_train_datasets", "src/megatron/energon/wrappers/epochize_dataset.py:EpochizeDataset", "src/megatron/energon/savable_loader.py:SavableDataLoader.__iter__", "src/megatron/energon/savable_loader.py:BasicDataLoader.__iter__"]}
{"id": "C105", "title": "The length of a loader", "statement": "len(loader) is the number of batches that every complete for loop over the loader delivers: for a validation loader whose functions skip nothing (without packing and grouping), and for a training loader with virtual epochs.", "quantifier": "all datasets, batch sizes, limits, epoch lengths, ranks, numbers of workers and of loops, schedules of the worker processes", "why_tests_cant": "an arithmetic formula against what all workers deliver in all schedules, for unbounded sizes", "anchors": ["src/megatron/energon/wrappers/batch_dataset.py:BatchDataset.__len__", "src/megatron/energon/wrappers/limit_dataset.py:LimitDataset.__len__", "src/megatron/energon/wrappers/concat_dataset.py:ConcatDataset.__len__", "src/megatron/energon/wrappers/epochize_dataset.py:EpochizeDataset.__len__", "src/megatron/energon/flavors/webdataset/sample_loader.py:WebdatasetSampleLoaderDataset.__len__", "src/megatron/energon/savable_loader.py:SavableDataLoader"]}
{"id": "C106", "title": "energon prepare takes the tar files of the dataset", "statement": "energon prepare processes exactly the tar files (named *.tar or *.tgz) below the directory of the dataset, at any depth, each once, in the order of their paths, except for those matching --exclude; the names it lists address these files, and loading can read them. --tar-index-only makes the indices again for exactly the listed shards.", "quantifier": "all directory trees, directories of datasets (local or remote), exclude expressions", "why_tests_cant": "all file and directory names, including those with special characters", "anchors": ["src/megatron/energon/tools/prepare.py:command", "src/megatron/energon/epathlib/epath.py:EPath.glob", "src/megatron/energon/epathlib/epath.py:EPath.__lt__", "src/megatron/energon/flavors/webdataset/prepare.py:WebdatasetPreparator.prepare_dataset", "src/megatron/energon/flavors/webdataset/itar.py:open_itar"]}
{"id": "C107", "title": "Random numbers of user functions after resuming", "statement": "If user functions draw from the global random generators (torch, numpy, random), a loader restored from a saved state in a new process delivers the same batches, with the same random numbers, as the loader that was not interrupted.", "quantifier": "all datasets that resume exactly, functions drawing any amount of numbers, histories of saves and restores, schedules of the worker processes", "why_tests_cant": "every point of saving, all histories of restores and all prefetching schedules", "anchors": ["src/megatron/energon/savable_loader.py:SavableDatasetWrapper._save_state", "src/megatron/energon/savable_loader.py:SavableDatasetWrapper._restore_state", "src/megatron/energon/savable_loader.py:SimpleSavableDatasetWrapper.save_state", "src/megatron/energon/savable_loader.py:_init_worker", "src/megatron/energon/rng.py:SystemRng"]}
{"id": "C108", "title": "Joined datasets in training and validation", "statement": "Datasets joined sample by sample behave like one dataset of tuples: joining is refused unless the datasets have equally many shards with equal counts; over all ranks and workers each joined sample is delivered exactly once per validation, with the samples of the same number from all datasets; training on joined datasets (also blended with others) can be saved at any point and goes on exactly, including slices that are open in the middle", "quantifier": "all joined datasets with any number of columns, blends, task encoders, ranks, workers, histories of saves and restores", "why_tests_cant": "all dataset shapes, worker counts and points of saving; a test fixes one dataset, one shuffle size and one point", "anchors": ["src/megatron/energon/flavors/webdataset/joined_webdataset.py:JoinedWebdatasetFactory", "src/megatron/energon/flavors/webdataset/sample_loader.py:WebdatasetSampleLoaderDataset._read_multicolumn_shard", "src/megatron/energon/flavors/webdataset/sample_loader.py:WebdatasetSampleLoaderDataset.restore_sample", "src/megatron/energon/task_encoder/base.py:DefaultTaskEncoder.build_train_datasets", "src/megatron/energon/task_encoder/base.py:DefaultTaskEncoder.build_val_datasets"]}
{"id": "C109", "title": "Reproducible scaling", "statement": "A training run can be repeated with another number of ranks (and micro-batches of another size) with the same data: if world_size * num_workers, the global batch size and the seeds stay the same, each training step gets the same global batch", "quantifier": "all datasets and blends, task encoders, ways to distribute the workers over ranks, micro-batch sizes, both kinds of loaders, schedules of the worker processes, training steps", "why_tests_cant": "all distributions, all lengths of runs and schedules; a test compares two fixed distributions for a few steps", "anchors": ["src/megatron/energon/docs/source/repro_scaling.md", "src/megatron/energon/flavors/webdataset/sharder.py:Sharder.shard_workers", "src/megatron/energon/worker.py:WorkerConfig.worker_seed", "src/megatron/energon/worker.py:WorkerConfig.active_worker_sample_index", "src/megatron/energon/task_encoder/base.py:stateless", "src/megatron/energon/task_encoder/base.py:DefaultTaskEncoder.build_train_datasets"]}
{"id": "C110", "title": "Overriding configuration values", "statement": "override(value, overrides) sets the values named by the keys (with dots, or nested) to what is given for them, converted for their annotations, and leaves everything else as it is; the result is of the annotated type, and every field and element can be set this way", "quantifier": "all configuration objects (dataclasses, named tuples, unions, lists, tuples, nested to any depth), all overrides", "why_tests_cant": "arbitrarily nested types and keys; a test fixes one type and one key", "anchors": ["src/megatron/energon/typed_converter.py:override", "src/megatron/energon/typed_converter.py:_split_dict_keys", "src/megatron/energon/typed_converter.py:_isinstance_deep"]}
{"id": "C111", "title": "Access to remote data", "statement": "A path rclone://NAME/BUCKET/PATH, and every path derived from it, is accessed with the credentials and at the endpoint of the section NAME of the rclone configuration (the first that exists of the documented places; endpoints without a scheme use https), whatever other sections say; in every process, also forked ones, through a connection of its own; remotes that are unknown or not of type s3 are refused", "quantifier": "all configurations, URLs, histories of creating and deriving paths, forking and accessing files", "why_tests_cant": "all histories of forks and derived paths, and all contents of the configuration file; a test uses one process and one file", "anchors": ["src/megatron/energon/epathlib/epath.py:EPath.__init__", "src/megatron/energon/epathlib/epath.py:EPath.create_s3fs_from_rclone_remote", "src/megatron/energon/epathlib/epath.py:EPath.fork_guard", "src/megatron/energon/epathlib/rclone_config.py:get_rclone_config_path", "src/megatron/energon/epathlib/rclone_config.py:read_rclone_config_at_path"]}
{"id": "C112", "title": "Worker configuration and seeds of a pipeline", "statement": "All datasets of a pipeline and its loader work for the same rank, number of ranks and number of workers; anything else is refused when they are put together. The workers of a run get different seeds, which depend only on the number of the worker and on seed_offset; shuffling and blending use the seed_offset of the datasets, user code the one of the configuration passed to the loader", "quantifier": "all pipelines, worker configurations, ranks, numbers of workers, seed offsets", "why_tests_cant": "all ways to put datasets together and all pairs of workers; a test compares a few", "anchors": ["src/megatron/energon/worker.py:WorkerConfig.__eq__", "src/megatron/energon/worker.py:WorkerConfig.worker_seed", "src/megatron/energon/wrappers/base.py:BaseWrapperDataset.__init__", "src/megatron/energon/loader.py:get_savable_loader", "src/megatron/energon/loader.py:get_loader", "src/megatron/energon/savable_loader.py:_init_worker", "src/megatron/energon/savable_loader.py:SavableDataLoader.__init__"]}
{"id": "C113", "title": "An interrupted energon prepare is noticed", "statement": "If `energon prepare` is killed at any point, the dataset afterwards cannot be loaded, or each part is loaded as it was before, or as the complete new preparation makes it: never with some shards or samples silently missing. A preparation that is repeated and comes to its end repairs everything", "quantifier": "all datasets, earlier contents of the metadata folder, and points in time at which the process dies, also in the middle of writing a file", "why_tests_cant": "all crash points, also between two characters of a file, and all datasets; a test kills the process at a few", "anchors": ["src/megatron/energon/flavors/webdataset/prepare.py:WebdatasetPreparator.prepare_dataset", "src/megatron/energon/tools/prepare.py:command", "src/megatron/energon/dataset_config.py:get_dataset_from_config", "src/megatron/energon/flavors/webdataset/metadata.py:WebdatasetMeta.from_config"]}
{"id": "C114", "title": "Pinning memory keeps a batch", "statement": "With CUDA every batch a loader delivers is pinned (pin_memory=True). The pinned batch is the same as the one the worker made: the same classes, fields, keys, order and contents at every depth, and each tensor in it is in pinned memory", "quantifier": "all batches: tensors, dicts, dataclasses, named tuples, lists and tuples, nested to any depth", "why_tests_cant": "arbitrarily nested structures; a test fixes a few", "anchors": ["src/megatron/energon/flavors/base_dataset.py:PinMemoryMixin._pin_memory", "src/megatron/energon/savable_loader.py:SavableDataLoader.__init__", "src/megatron/energon/savable_loader.py:BasicDataLoader.__init__"]}
{"id": "C115", "title": "config() tells whether datasets have the same settings", "statement": "config() of a dataset \"can be used to check if datasets have the same settings\": the configs of two datasets are equal exactly if the datasets have the same settings, up to wrappers that do not change the samples (logging, garbage collection); and the config can be written as JSON, so that a loader with logging can be made", "quantifier": "all datasets made of the reader and the wrappers, nested to any depth, with all settings", "why_tests_cant": "arbitrarily nested datasets and all values of all settings; a test compares a few", "anchors": ["src/megatron/energon/flavors/base_dataset.py:SavableDataset.config", "src/megatron/energon/flavors/base_dataset.py:SavableDataset._function_config", "src/megatron/energon/flavors/webdataset/sample_loader.py:WebdatasetSampleLoaderDataset.config", "src/megatron/energon/flavors/webdataset/default_generic_webdataset.py:DefaultGenericWebdatasetFactory.config", "src/megatron/energon/flavors/webdataset/default_decoder_webdataset.py:DefaultDecoderWebdatasetFactory.config", "src/megatron/energon/wrappers/group_batch_dataset.py:GroupBatchDataset.config", "src/megatron/energon/wrappers/map_dataset.py:MapDataset.config", "src/megatron/energon/worker.py:WorkerConfig.config", "src/megatron/energon/task_encoder/base.py:TaskEncoder.build_cook_crude_sample", "src/megatron/energon/savable_loader.py:SavableDataLoader.config"]}
{"id": "C116", "title": "An exception in a worker process reaches the user once, in its turn", "statement": "If the dataset of a worker process raises (an error no handler takes), next of the loader raises it exactly once, in its turn behind the samples of that worker before it; no sample of any worker is lost or repeated, next always returns, states saved afterwards count only the samples, and the user can go on iterating with all workers", "quantifier": "all numbers of workers, all datasets of the workers with exceptions at any place, all schedules of the processes, any number of calls of next after exceptions", "why_tests_cant": "interleavings of processes and exceptions at any place; a test runs one schedule", "anchors": ["src/megatron/energon/savable_loader.py:SavableDataLoader.__iter__", "src/megatron/energon/savable_loader.py:SavableDatasetWrapper.__iter__", "src/megatron/energon/savable_loader.py:SimpleSavableDatasetWrapper.__iter__"]}
{"id": "C117", "title": "energon preview shows the samples of the dataset until the user stops", "statement": "energon preview shows the samples of the given split parts in order, the next one after each yes to Continue?; after a no (or Ctrl-C) nothing more is shown. Every sample can be shown, and pictures are resized to fit the terminal", "quantifier": "all split parts and samples, nested values of any depth, all sequences of answers, all sizes of pictures and terminals", "why_tests_cant": "arbitrary interactions, nested values and sizes; a test fixes a few", "anchors": ["src/megatron/energon/tools/preview.py:command", "src/megatron/energon/tools/preview.py:to_str", "src/megatron/energon/tools/preview.py:pprint"]}
{"id": "C118", "title": "get_val_datasets gives every dataset on its own", "statement": "get_val_datasets returns one validation dataset per source dataset, in the order of the sources and with its source beside it. Every pass over the j-th of them, over all workers of all ranks, uses exactly the samples of the j-th source, each once; no batch mixes sources, and batch size, dropping of the last batch and limit count for each dataset by itself. All of them together use the same samples as get_val_dataset", "quantifier": "all lists of datasets, numbers of ranks and workers, batch sizes, limits, task encoders and passes", "why_tests_cant": "all partitions of all datasets over all ranks and workers; a test fixes one", "anchors": ["src/megatron/energon/task_encoder/loader.py:get_val_datasets", "src/megatron/energon/task_encoder/base.py:TaskEncoder.build_val_datasets"]}
{"id": "C119", "title": "After an exception in a worker process the state can be saved and resumed", "statement": "When the dataset of a worker process has raised, save_state of the loader works at any time, and a new loader restored from the state goes on without loss: if the exception has not been delivered yet, with exactly the samples that are missing before it; if it has, with what the dataset of the worker delivers after the exception, numbered on", "quantifier": "all datasets that resume exactly, places of the exception, histories of saves and restores, timings of checkpoints and prefetching", "why_tests_cant": "all interleavings of prefetching, checkpoints, exceptions and saves; a test runs one", "anchors": ["src/megatron/energon/savable_loader.py:SavableDatasetWrapper.__iter__", "src/megatron/energon/savable_loader.py:SavableDatasetWrapper._store_checkpoint", "src/megatron/energon/savable_loader.py:SavableDatasetWrapper.get_checkpoint", "src/megatron/energon/savable_loader.py:SavableDataLoader.save_state_rank"]}
{"id": "C120", "title": "Messages of errors about samples are short", "statement": "The text by which an error names a sample is bounded in length by the depth, the number of entries and the text length that are shown, however many and however long fields the sample has and however deep it is nested; the first entries are shown in order, and small values completely", "quantifier": "all samples: dicts, lists and texts of any size and depth, with any other values in them", "why_tests_cant": "unbounded sizes and depths of the samples; a test prints a few", "anchors": ["src/megatron/energon/errors.py:compact_str", "src/megatron/energon/errors.py:SampleException.from_sample", "src/megatron/energon/flavors/webdataset/field_access.py:field_access"]}
{"id": "C121", "title": "Regular garbage collection bounds the memory of a pass", "statement": "A dataset wrapped for garbage collection every n samples frees every object that nothing refers to any more after at most n more samples, never one that is still used, and its memory stays bounded however long the pass is; objects are frozen only while a pass of a freezing dataset runs, however it ends; in a worker process that has not been prepared it delivers nothing", "quantifier": "any number of wrapped datasets in a process, all interleavings of their passes, of objects created and dropped by everything else, of automatic collections, and all ends of passes", "why_tests_cant": "all interleavings and lengths of passes; a test observes one", "anchors": ["src/megatron/energon/wrappers/gc_dataset.py:GcDataset.__iter__", "src/megatron/energon/wrappers/gc_dataset.py:gc_init_worker", "src/megatron/energon/wrappers/gc_dataset.py:GcFreezeError"]}
{"id": "C122", "title": "Training with virtual epochs can be saved and resumed in any epoch", "statement": "With virtual_epoch_length, the state of the loader can be saved in any epoch, and a new loader restored from it first delivers exactly the rest of the epoch that was current, then full epochs: each worker goes on behind the batches that have been delivered to the user, nothing is lost or repeated, and the epochs end where they end without the interruption", "quantifier": "all datasets and task encoders that resume exactly, worker configurations, epoch lengths, histories of epochs, saves and restores, timings of checkpoints and prefetching", "why_tests_cant": "all positions of saves relative to the ends of the epochs of all workers, and all interleavings; a test runs one", "anchors": ["src/megatron/energon/savable_loader.py:SavableDatasetWrapper.__iter__", "src/megatron/energon/savable_loader.py:SavableDatasetWrapper._store_checkpoint", "src/megatron/energon/savable_loader.py:SavableDatasetWrapper.get_checkpoint", "src/megatron/energon/savable_loader.py:SavableDataLoader.__iter__", "src/megatron/energon/savable_loader.py:SavableDataLoader.save_state_rank", "src/megatron/energon/wrappers/epochize_dataset.py:EpochizeDataset"]}
{"id": "C123", "title": "Validation through worker processes can be saved and resumed in any loop", "statement": "A savable loader without virtual epochs (validation) can be saved in any loop or between two loops, and a new loader restored from it first delivers exactly the rest of the pass that was current and then, in each further loop, all samples of all workers; what the first loop delivers does not depend on how fast the workers were or when checkpoints were stored", "quantifier": "all datasets that resume exactly or up to the end of a pass, worker configurations, histories of loops, saves and restores, timings of checkpoints and prefetching", "why_tests_cant": "all positions of saves relative to the ends of the passes of all workers, all timers and interleavings; a test runs one", "anchors": ["src/megatron/energon/savable_loader.py:SavableDatasetWrapper.__iter__", "src/megatron/energon/savable_loader.py:SavableDatasetWrapper._store_checkpoint", "src/megatron/energon/savable_loader.py:SavableDatasetWrapper.get_checkpoint", "src/megatron/energon/savable_loader.py:SavableDataLoader.__iter__", "src/megatron/energon/savable_loader.py:SavableDataLoader.save_state_rank", "src/megatron/energon/task_encoder/base.py:DefaultTaskEncoder.build_val_datasets"]}
{"id": "C124", "title": "ignore_decoder_errors decides whether samples that cannot be decoded are left out", "statement": "With ignore_decoder_errors a sample whose files cannot be decoded is left out and all others are delivered in order, whatever the error handler does; errors of the system are never ignored; with auto_decode off the decoder is not used at all", "quantifier": "all readers, samples, decoders, error handlers and states of the dataset", "why_tests_cant": "all decoders and all positions of samples that cannot be decoded", "anchors": ["src/megatron/energon/flavors/webdataset/default_decoder_webdataset.py:DefaultDecoderWebdatasetFactory.load_sample", "src/megatron/energon/flavors/webdataset/default_decoder_webdataset.py:DefaultDecoderWebdatasetFactory._decode_error_handler", "src/megatron/energon/flavors/webdataset/base_webdataset.py:BaseWebdatasetFactory.build", "src/megatron/energon/flavors/webdataset/error_handler.py:ErrorHandler"]}
{"id": "C125", "title": "A sample says truly where it comes from", "statement": "Whatever files a sample has and whatever its sample loader returns, the loaded sample has the restore key of the place it was read from and the subflavors of its dataset; its key is the one the sample loader returns, and otherwise that of the file. A crude sample has besides these exactly its decoded files, and a cooker that passes on basic_sample_keys keeps key, restore key and subflavors", "quantifier": "all files of a sample (names, order, repeated names), part filters, decoders, sample loaders, sample classes, cookers", "why_tests_cant": "all names of files and all results of user functions", "anchors": ["src/megatron/energon/flavors/webdataset/single_shard_reader.py:WebdatasetSampleLoaderShardReader.read_next", "src/megatron/energon/flavors/webdataset/default_generic_webdataset.py:DefaultGenericWebdatasetFactory.load_sample", "src/megatron/energon/flavors/crude.py:CrudeWebdataset", "src/megatron/energon/task_encoder/cooking.py:basic_sample_keys"]}
