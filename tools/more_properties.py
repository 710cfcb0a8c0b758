# C51 ... : properties added while the model grew (exec'd by gen_properties.py)
# C51
p("Batching resumes exactly",
  "Saving a batched dataset after any batch and restoring it in a new process continues with exactly the batches (contents and restore keys) of the uninterrupted run; only the report of the end of a pass may be missing if the state is saved after the last, incomplete batch of the pass. With an endless source the continuation is exact.",
  "every source that resumes exactly, every batch size, every batcher (also failing ones), every save point and history of saves",
  "all save points of all histories",
  ["wrappers/batch_dataset.py:BatchDataset"])
# C52
p("Mapping the sample stream is faithful, resumes and keeps restore keys",
  "A stateless stream mapping (iter_map) delivers for each source sample what the function yields for it, in order, an exception affecting only the source sample it is raised for; saving after any delivered sample and restoring continues with the uninterrupted run; each delivered sample can be restored from its key.",
  "every source, every stateless mapping function (yielding any number of samples per source sample, possibly raising), every save point",
  "all functions and all save points",
  ["wrappers/iter_map_dataset.py:IterMapDataset"])
# C53
p("The loader without worker processes resumes exactly",
  "With num_workers = 0, saving the loader after any number of batches and restoring it in a new process continues with exactly the batches of the uninterrupted run, including their restore keys and running numbers.",
  "every dataset that resumes exactly, every save point and history of saves",
  "all save points of all histories",
  ["savable_loader.py:SimpleSavableDatasetWrapper"])
# C54
p("Joined datasets combine the parts of one sample",
  "Each sample of a joined dataset consists of exactly one sample of each joined dataset, all with the same key; if the datasets have the same keys in the same order, all samples are delivered, in order.",
  "every set of tar files, every slice, every error handler, shards that agree or not",
  "all shard contents and all positions of a disagreement",
  ["flavors/webdataset/sample_loader.py:_read_multicolumn_shard", "flavors/webdataset/joined_webdataset.py:JoinedWebdatasetFactory"])
# C55
p("Which files belong to one sample",
  "The samples of a shard are the maximal runs of consecutive files with the same base name; the base name is the path up to the first dot of its last component, the rest is the name of the part; files below a top directory named __..__ and files without a dot are ignored.",
  "every list of member names",
  "all names and all orders of members",
  ["flavors/webdataset/config.py", "flavors/webdataset/prepare.py:_preprocess_tar", "flavors/webdataset/single_shard_reader.py:SingleShardReader"])
# C56
p("Joined samples can be restored",
  "The restore key of each sample of a joined dataset restores this sample, from all of its parts.",
  "every joined dataset, every sample",
  "all shards, slices and samples",
  ["flavors/webdataset/joined_webdataset.py:load_sample", "flavors/webdataset/sample_loader.py:restore_sample", "flavors/base_dataset.py:set_sample_restore_key"])
# C57
p("Shuffle-over-epochs multipliers multiply along the path",
  "The effective shuffle-over-epochs multiplier of a dataset reached through nested metadatasets is the product of the multipliers on the path; -1 (shuffle over everything, for ever) on any level makes it -1.",
  "every nesting of metadatasets, references and joins, all multipliers",
  "all nestings and depths",
  ["metadataset/metadataset_v2.py:DatasetReference", "metadataset/metadataset_v2.py:MetadatasetJoin", "metadataset/metadataset.py", "metadataset/dataset_loader.py:DatasetLoader"])
# C58
p("The split configuration given for a part is used",
  "A split_config given for a dataset in a metadataset determines which split file this dataset reads, for a single dataset and for each part of a join.",
  "every metadataset, every part, every split_config",
  "all nestings of metadatasets",
  ["metadataset/metadataset_v2.py:DatasetReference", "metadataset/metadataset_v2.py:MetadatasetJoin", "metadataset/join_dataset_loader.py:JoinDatasetLoader"])
# C59
p("A prepared dataset loads with the counted samples",
  "Every split part written by the preparation can be loaded: exactly the shards listed for the part and not excluded, in order, each with the number of samples counted; only a part without shards is refused. A missing sample count never occurs.",
  "every set of tar files (also broken or empty ones), every order after shuffling, every list of ratios and of excludes",
  "all combinations of shards, parts and excludes",
  ["flavors/webdataset/prepare.py:WebdatasetPreparator.prepare_dataset", "flavors/webdataset/metadata.py:WebdatasetMeta.from_config"])
# C60
p("Default batching keeps every field of every sample",
  "The default batching of structured samples (dicts, dataclasses, named tuples, nested) yields a structure in which the entry at each path of fields is made of exactly the entries of the samples at this path, in order; no field of a sample is lost.",
  "every list of samples, every nesting and set of fields",
  "all structures and batch sizes",
  ["task_encoder/base.py:generic_batch", "task_encoder/base.py:TaskEncoder._batch"])
# C61
p("A path survives its textual form",
  "Reading the url of a path gives the same path on the same file system; different paths have different urls; the relative path to a directory, joined to this directory, gives the path back.",
  "every path, local or remote",
  "all names and depths",
  ["epathlib/epath.py:EPath.url", "epathlib/epath.py:EPath.__init__", "epathlib/epath.py:EPath.relative_to"])
# C62
p("Every shard has its own index file",
  "Two different shard files never share an index file, and the temporary file used while writing an index never collides with a shard or an index.",
  "every pair of shard names in a directory",
  "all names",
  ["flavors/webdataset/itar.py:TarIndexWriter", "epathlib/epath.py:EPath.with_suffix", "tools/prepare.py"])
# C63
p("One interpolation mode and one fill value for merged transforms",
  "Transforms are merged exactly if all interpolation modes they give agree and all fill values they give agree (an error otherwise); this mode (bilinear if none is given) and this value are used.",
  "every list of transforms",
  "all lists of transforms",
  ["transforms/merge.py:MergeTransform.__init__"])
# C64
p("The random resized crop stays inside of the image",
  "The box chosen for a random resized crop lies inside of the image and has at least one pixel.",
  "every image size, every range of aspect ratios, every sequence of random draws",
  "all draws and sizes",
  ["transforms/mappers.py:RandomResizedCropMapper.get_params"])
# C65
p("A whole training dataset resumes exactly",
  "For the dataset that get_train_dataset builds (any number of blended datasets, sharding, parallel shard readers, shuffle buffer, cooking, encoding, packing, batching, virtual epochs, logging): saving the state in a worker at any point and restoring it in a new process gives a dataset that delivers the same samples as the uninterrupted one, for ever.",
  "every composition of datasets and options, every worker, every point of saving, every history of earlier restores",
  "the state is spread over all the layers, and each layer relies on guarantees of the one below; tests check a few compositions and points",
  ["task_encoder/base.py:TaskEncoder.build_train_datasets", "task_encoder/base.py:TaskEncoder.build_batch", "flavors/webdataset/base_webdataset.py:BaseWebdatasetFactory.build"])
# C66
p("Every batch of a training or validation dataset is restored from its key",
  "restore_sample with the restore key of any batch that the assembled dataset delivered gives this batch again, if all functions of the task encoder are stateless.",
  "every composition of datasets and options, every worker, every delivered batch in every history",
  "the keys are nested through all layers",
  ["task_encoder/base.py:TaskEncoder.build_train_datasets", "task_encoder/base.py:TaskEncoder.build_val_datasets", "task_encoder/base.py:TaskEncoder.build_batch"])
# C67
p("A validation pass uses every sample exactly once",
  "In each pass over the validation dataset, over all ranks and workers together, every sample of every dataset is used exactly once; if samples are skipped, batches dropped or the number of batches limited, at most once.",
  "every list of datasets, every number of ranks and workers, every pass, all failures of user functions",
  "all shard sizes, world sizes and passes",
  ["task_encoder/base.py:TaskEncoder.build_val_datasets", "flavors/webdataset/sharder.py", "wrappers/concat_dataset.py"])
# C68
p("What validation delivers",
  "Every pass of a worker over the validation dataset delivers the same batches: the samples of this worker, dataset by dataset and in the order in which they are stored, cooked and encoded (without the skipped ones; generator functions give several samples), with packing: packed from buffers of the packing buffer size, put in order into batches of the batch size, or, with a group criterion, into batches of samples of one group in the order in which they are completed, and put through encode_batch; with a limit, the first batches of this list.",
  "every list of datasets, every number of ranks and workers, every pass, all user functions",
  "all datasets, functions and passes",
  ["task_encoder/base.py:TaskEncoder.build_val_datasets", "task_encoder/base.py:TaskEncoder.build_batch", "wrappers/concat_dataset.py", "wrappers/limit_dataset.py"])
# C69
p("What training delivers, with interruptions",
  "All batches a training worker delivers, over any number of interruptions (saving the state and going on in a new process): each dataset's samples are taken from this worker's share only and, without replacement, all of the share once in each round; apart from fewer samples than the size of the shuffle buffer that are held back, each sample taken is loaded, cooked, encoded, (packed) and is in exactly one batch of exactly the batch size, in order (with groups: in the order in which the batches are completed). The shares of different workers are disjoint and cover the dataset.",
  "every list of datasets and options, every worker, every history of iterating, saving and restoring, all user functions, all random numbers",
  "all histories, sizes, random numbers",
  ["task_encoder/base.py:TaskEncoder.build_train_datasets", "task_encoder/base.py:TaskEncoder.build_batch", "wrappers/blend_dataset.py", "wrappers/shuffle_buffer_dataset.py", "flavors/webdataset/sample_loader.py"])
# C70
p("Field maps load what they describe",
  "In the field map of a dataset, a description made of alternatives part[key]...[key] separated by commas gives the value of the first alternative that exists in the sample; loading the field fails exactly if none exists. The loaded sample has for every mapped field exactly this value, the key and restore key of the file, and the subflavors of the dataset. Reading only the parts that are named by the field map gives the same sample.",
  "every sample (any nesting of dicts and lists), every field map, every selection of parts that keeps the named ones",
  "all nestings, all descriptions",
  ["flavors/webdataset/field_access.py:split_field_access", "flavors/webdataset/field_access.py:field_access", "flavors/webdataset/default_generic_webdataset.py:DefaultGenericWebdatasetFactory"])
# C71
p("Incomplete field maps are refused",
  "A field map is accepted only if all its names are fields of the sample type and every required field of the sample type gets a value; with an accepted field map every sample that has the named parts can be loaded.",
  "every sample type, every field map",
  "all sets of required and optional fields",
  ["flavors/webdataset/default_generic_webdataset.py:DefaultGenericWebdatasetFactory.__init__"])
# C72
p("Configurations are accepted exactly if they fit their type",
  "Reading a configuration into a typed structure (strict) succeeds exactly if it fits the annotation at every depth: required attributes present, no unknown attributes, each value of the annotated type; of a union, the first type that fits is used. The conversion always terminates.",
  "every raw configuration, every annotation (nested dataclasses, named tuples, unions, literals, lists, tuples, dicts)",
  "all nestings and depths of types and data",
  ["typed_converter.py:raw_to_typed", "flavors/webdataset/metadata.py:WebdatasetMeta.from_config"])
# C73
p("A converted configuration has the annotated type",
  "What the conversion returns is a value of the annotated type at every depth.",
  "every raw configuration, every annotation, with and without imports, strict or not",
  "all nestings of types and data",
  ["typed_converter.py:raw_to_typed", "typed_converter.py:raw_to_instance"])
# C74
p("Typed data survive writing and reading",
  "Typed data written as JSON and read with their annotation are the same again; in particular the metadata files of a prepared dataset are read as they were written.",
  "every annotation and every value of it; all shard counts, split parts and exclusions",
  "all values and nestings",
  ["typed_converter.py:to_json_object", "typed_converter.py:raw_to_typed", "flavors/webdataset/prepare.py:WebdatasetPreparator.prepare_dataset"])
# C75
p("A dataset is created with the settings of its configuration",
  "load_config creates the class named in the configuration (or the default class), each parameter having the value of the configuration file, or else of the caller, or else its default, converted to its annotation; no setting is ignored: unknown ones are passed on to **kwargs, or refused if the class takes none; a missing required one is refused.",
  "every configuration, all arguments of the caller, every class",
  "all combinations of settings of file, caller and defaults",
  ["dataset_config.py:load_config", "typed_converter.py:raw_to_instance", "typed_converter.py:safe_call_function"])
# C76
p("Positional arguments keep their order",
  "safe_call_function with a list passes the i-th element of the list as i-th argument.",
  "every function, every list of arguments",
  "all numbers of arguments and types",
  ["typed_converter.py:safe_call_function"])
# C77
p("Training never stalls",
  "If the user functions (loading, cooking, encoding, selecting and packing, batching) accept the samples, every call of next on a training dataset returns a sample, or, only if virtual epochs are used, the end of an epoch; it neither blocks for ever nor raises; in every worker and after any number of interruptions.",
  "all datasets, shardings, workers, task encoders, options; all histories of iterating, saving and resuming",
  "an unbounded number of calls, all histories",
  ["task_encoder/base.py:TaskEncoder.build_train_datasets", "flavors/webdataset/sample_loader.py:WebdatasetSampleLoaderDataset", "wrappers/blend_dataset.py:BlendDataset", "wrappers/shuffle_buffer_dataset.py:ShuffleBufferDataset", "wrappers/packing_dataset.py:PackingDataset", "wrappers/batch_dataset.py:BatchDataset"])
# C78
p("An interrupted training run is the uninterrupted one",
  "A training loader with worker processes over the datasets of a task encoder, saved and restored any number of times at any point, delivers in total what the uninterrupted loader delivers, from each worker and in the same order: made of the samples of the share of this worker, each of them once per round; next always returns, and the state can always be saved.",
  "all datasets, shardings, numbers of workers, task encoders, options; all schedules of the processes, timers of the checkpoints and points of saving",
  "all interleavings of the processes and all histories",
  ["savable_loader.py:SavableDataLoader", "savable_loader.py:SavableDatasetWrapper", "task_encoder/base.py:TaskEncoder.build_train_datasets", "loader.py:get_savable_loader"])
# C79
p("Validation through a loader sees every sample once per loop",
  "Every complete for loop over a validation loader (get_loader or get_savable_loader) with any number of worker processes comes to its end; in each loop, over all ranks, every sample of the datasets is used exactly once (at most once with limits, dropped batches or skipped samples), in the second and later loops like in the first; the samples of the workers of a rank come in turns, independently of how the processes are scheduled.",
  "all datasets, numbers of ranks and workers, task encoders, options; all schedules of the worker processes; any number of loops",
  "all interleavings of the processes, any number of loops",
  ["loader.py:get_loader", "loader.py:get_savable_loader", "savable_loader.py:BasicDataLoader", "savable_loader.py:SimpleSavableDatasetWrapper", "savable_loader.py:SavableDatasetWrapper", "task_encoder/base.py:TaskEncoder.build_val_datasets"])
# C80
p("A loop may be left early",
  "A for loop over a loader may be left at any sample (break, or an exception of user code): the loops after it go on with the next sample. Over all loops together the samples delivered are the ones of an uninterrupted loop, in the same order, none lost, none twice; also if states are saved and restored in between.",
  "all datasets, task encoders, options, worker configurations; all histories of taking samples, ending, leaving, saving and restoring",
  "all points of leaving in all histories of loops; all schedules of the worker processes",
  ["savable_loader.py:SavableDataLoader.__iter__", "savable_loader.py:BasicDataLoader.__iter__", "wrappers/epochize_dataset.py:EpochizeDataset", "wrappers/concat_dataset.py:ConcatDataset", "wrappers/packing_dataset.py:PackingDataset", "wrappers/map_dataset.py:MapDataset", "wrappers/batch_dataset.py:BatchDataset", "flavors/webdataset/sample_loader.py:WebdatasetSampleLoaderDataset"])
# C81
p("A distributed job resumes on every rank",
  "save_state, called on all ranks, hands the states of all ranks, in the order of the ranks, to every rank (or to dst_rank); restore_state with that list (on all ranks, or with src_rank only on that one) brings every rank back to the state it saved itself, also if it is saved again before the first sample; so every rank of a job interrupted any number of times sees what it would have seen without interruptions.",
  "all numbers of ranks, process groups, datasets, positions of the ranks, histories of interruptions",
  "all group layouts and histories; the ranks are at arbitrary, different positions",
  ["savable_loader.py:SavableDataLoader.save_state", "savable_loader.py:SavableDataLoader.restore_state", "savable_loader.py:SavableDataLoader.save_state_rank", "savable_loader.py:SavableDataLoader.restore_state_rank"])
# C82
p("Mixed batches are made of consecutive drawn samples",
  "MixBatchDataset draws from its datasets with the given weights, each dataset delivering its samples in order, and delivers batch_mix_fn of consecutive runs of exactly batch_size drawn samples, none lost; it never ends and resumes exactly. homogeneous_concat_mix joins the fields of the batches: tensors are concatenated and padded as if all the samples had been put into one batch, every other field keeps one entry for each sample; batches of different types are returned as a list. Mixed batches can be restored from their keys if the function is stateless.",
  "all datasets, weights, batch sizes, mix functions, random numbers; all tensors and nested structures",
  "all shapes, nestings and histories",
  ["wrappers/mix_batch_dataset.py:MixBatchDataset", "wrappers/mix_batch_dataset.py:concat_pad", "wrappers/mix_batch_dataset.py:generic_concat", "wrappers/mix_batch_dataset.py:homogeneous_concat_mix"])
# C83
p("Restoring is refused unless every function is stateless",
  "If one of the functions of a task encoder (cooking, encoding, packing, batching, encode_batch) is not declared stateless, or there is a group criterion, restore_sample raises for the key of every batch; it never returns something that may differ from the batch.",
  "all task encoders, options, datasets, workers and keys",
  "all combinations of functions and all keys",
  ["wrappers/map_dataset.py:MapDataset.restore_sample", "wrappers/iter_map_dataset.py:IterMapDataset.restore_sample", "wrappers/batch_dataset.py:BatchDataset.assert_can_restore", "wrappers/group_batch_dataset.py:GroupBatchDataset.assert_can_restore", "wrappers/packing_dataset.py:PackingDataset.assert_can_restore"])
# C84
p("Batch functions that yield several samples",
  "With a generator function as batch function, BatchDataset delivers, for one batch of consecutive samples after the other, what the function yields for it, in order, each with the key of its batch and its number in it; the samples are restored from these keys; saved at any point, also in the middle of a batch, and restored from this state later, it goes on with the next sample.",
  "all generator functions, batch sizes, source datasets; all points of saving and restoring, however long the state is kept before",
  "all lengths of passes and batches, all points of saving; the state objects stay in memory while the run goes on",
  ["wrappers/batch_dataset.py:BatchDataset.__iter__", "wrappers/batch_dataset.py:BatchDataset.save_state", "wrappers/batch_dataset.py:BatchDataset.restore_sample", "savable_loader.py:SavableDatasetWrapper._store_checkpoint"])
# C85
p("energon lint finds the faults of a dataset",
  "energon lint of a dataset directory exits with success exactly if the index of every shard has the number of samples of the metadata and all samples of the given split parts are read and loaded without an exception, with every number of worker processes; split parts without shards are left out.",
  "all datasets, outcomes of reading and loading, split parts, numbers of worker processes, distributions of the samples over them",
  "all contents of datasets and all numbers of processes; the processes do not share memory",
  ["tools/lint.py:command", "tools/lint.py:check_index", "flavors/webdataset/error_handler.py:ErrorHandler"])
# C86
p("The error handler is told what failed",
  "The handler passed to a dataset is called exactly once for each file that cannot be read and each sample that cannot be loaded, in order, with the exception and the key of the sample; all samples that load are delivered, in order. An exception that is never handled ends the iteration.",
  "all sequences of samples and outcomes of reading and loading",
  "all combinations and orders of failures",
  ["flavors/webdataset/error_handler.py:ErrorHandler.error_handler", "flavors/webdataset/error_handler.py:ErrorHandler.sample_error_handler", "flavors/webdataset/single_shard_reader.py:SingleShardReader.read_next", "flavors/webdataset/base_webdataset.py:BaseWebdatasetFactory.build"])
# C87
p("Saving with worker processes always returns and sees each worker between two samples",
  "Saving the state of a loader with worker processes always returns, in whatever order the threads run: there is no deadlock between fetching samples and executing commands. It gets one answer of each worker, to this call and not to an earlier one, and each worker answers between two samples, never in the middle of fetching one: after all the samples the caller has got of it and at most two more.",
  "all numbers of workers, all interleavings of the steps of the main process, the generators and the command threads, all numbers of calls and samples",
  "all interleavings of the threads of all processes; a race shows up in few of them",
  ["savable_loader.py:SavableDatasetWrapper._command_thread", "savable_loader.py:SavableDatasetWrapper.__iter__", "savable_loader.py:SavableDataLoader._worker_command", "savable_loader.py:SavableDataLoader.save_state_rank"])
# C88
p("A worker is said to have no samples only if it has none",
  "worker_has_samples, by which blending leaves out parts and repeating checks that it can go on, is False for a dataset in a worker only if this worker never gets a sample of it, whatever has been saved and restored; a blend or concatenation has samples exactly if a part has, the reader exactly if the index of one of its slices counts a sample. It is True only if the worker can get a sample.",
  "all wrappers, all source datasets, numbers of workers, histories of iterating, saving and restoring",
  "all stacks of wrappers, all numbers of workers and lengths, all histories",
  ["wrappers/base.py:BaseSingleWrapperDataset.worker_has_samples", "wrappers/blend_dataset.py:BlendDataset.worker_has_samples", "wrappers/concat_dataset.py:ConcatDataset.worker_has_samples", "wrappers/limit_dataset.py:LimitDataset.worker_has_samples", "wrappers/repeat_dataset.py:RepeatDataset.__iter__", "flavors/webdataset/sample_loader.py:WebdatasetSampleLoaderDataset.worker_has_samples"])
# C89
p("restore_state(None) starts over",
  "After restore_state(None), called at any point, a dataset delivers exactly what a newly built one delivers: the same samples with the same restore keys, the same ends of passes and errors. A limited dataset, which resets its source after each pass, and so every validation set with a limit, delivers the same in every pass.",
  "all wrappers, source datasets, user functions, task encoders, points of calling restore_state(None), histories of saving and restoring before",
  "all histories; the comparison is between infinite streams of samples",
  ["wrappers/base.py:BaseSingleWrapperDataset.restore_state", "wrappers/base.py:SampleIndex.restore_state", "wrappers/limit_dataset.py:LimitDataset.__iter__", "wrappers/group_batch_dataset.py:GroupBatchDataset.restore_state", "rng.py:WorkerRng.restore_state", "task_encoder/base.py:TaskEncoder.build_val_datasets"])
# C90
p("Ranks get balanced shares",
  "Over all datasets loaded together, the numbers of samples owned by any two ranks (each with all its workers) differ by at most one.",
  "every list of dataset sizes, every number of ranks and of workers per rank, every pair of ranks",
  "unbounded parameter space; the sequence by which remainders are assigned is recursive",
  ["flavors/webdataset/sharder.py:Sharder._generalized_bit_reversal", "flavors/webdataset/sharder.py:Sharder.shard_workers", "task_encoder/base.py:TaskEncoder.build_train_datasets"])
# C91
p("Samples made from other samples keep their fields",
  "Joining samples into a sample class gives every field of every part: key, restore key and subflavors are those of the primary sample, any other field that of the last part that has it. derive_from keeps key, restore key and subflavors and sets the given fields; extend keeps all fields that are not given; the default task encoder converts samples and batches field by field. Each fails exactly if a field has no place in the class or no value.",
  "all sample classes, defaults, samples, numbers of parts (with missing ones), given fields",
  "all classes and combinations of overlapping fields",
  ["flavors/base_dataset.py:Sample.from_joined", "flavors/base_dataset.py:Sample.derive_from", "flavors/base_dataset.py:ExtendableDataclassMixin.extend", "task_encoder/base.py:DefaultTaskEncoder.encode_sample", "task_encoder/base.py:DefaultTaskEncoder.encode_batch"])
# C92
p("Debug logs are kept, one file for each process",
  "With a worker_debug_path that contains {worker_id} and {pid}, every entry written to the debug logs is found there afterwards, in order, in one file for each process; also without {pid} the main processes and the workers of all ranks write to different files.",
  "all numbers of ranks and workers, restored worker offsets, orders of log calls in all processes",
  "all interleavings of log calls of all processes; files are reopened depending on what was logged before",
  ["worker.py:WorkerConfig.worker_log", "worker.py:WorkerConfig.rank_worker_id", "savable_loader.py:SavableDatasetWrapper.restore_sample", "flavors/webdataset/single_shard_reader.py:SingleShardReader.__init__"])
# C93
p("A saved state can be restored more than once",
  "Without worker processes: a state that was saved is restored, the loader is iterated for any time, and the same state object is restored again in a new loader with the same datasets: it delivers what the first one delivered, the same samples with the same restore keys and the same ends of passes.",
  "all stacks of datasets, saved states, numbers of samples delivered after the first restore",
  "all stacks, histories and lengths; the comparison is between infinite streams",
  ["savable_loader.py:SavableDataLoader.restore_state_rank", "wrappers/base.py:SampleIndex.restore_state", "wrappers/buffer.py:SavableSampleBuffer.restore_state", "wrappers/epochize_dataset.py:EpochizeDataset.restore_state", "wrappers/limit_dataset.py:LimitDataset.restore_state", "wrappers/repeat_dataset.py:RepeatDataset.restore_state", "flavors/webdataset/sample_loader.py:WebdatasetSampleLoaderDataset.restore_state"])
# C94
p("A loader in use can be set back",
  "Without worker processes: restoring a state in a loader that has already delivered samples, also in the middle of a pass, gives exactly what restoring it in a new loader gives, and the states saved afterwards continue where this loader is.",
  "all stacks of datasets, states, points of restoring, numbers of restores",
  "all histories of iterating, saving and restoring; generators that are suspended at any point",
  ["savable_loader.py:SimpleSavableDatasetWrapper.__iter__", "savable_loader.py:SavableDataLoader.restore_state_rank", "wrappers/epochize_dataset.py:EpochizeDataset.__iter__", "wrappers/epochize_dataset.py:EpochizeDataset.restore_state", "flavors/webdataset/sample_loader.py:WebdatasetSampleLoaderDataset._shards_iter"])
# C95
p("Metadatasets can be moved with what they refer to",
  "Relative paths in a metadataset file start at the directory of this file, also if it is included by another file: a tree of metadatasets and datasets that refer to each other by relative paths can be copied to another directory or remote, and loading it there gives the same. A metadataset can be loaded exactly if all references, of all splits, lead to datasets, or to metadatasets that can be loaded, and not in circles; what is loaded is determined by the files alone.",
  "all trees of files, nesting depths, references, directories and remotes, arguments of the loading functions",
  "unbounded trees of files; all relative paths",
  ["metadataset/metadataset.py:MetadatasetDataset.prepare", "metadataset/metadataset.py:DatasetReference.prepare", "metadataset/metadataset_v2.py:MetadatasetV2.__post_init__", "metadataset/metadataset_v2.py:DatasetReference.prepare", "metadataset/metadataset_v2.py:DatasetJoiner.prepare", "metadataset/loader.py:load_dataset"])
# C96
p("The arguments for loading apply to every dataset that is loaded",
  "split_part, subflavor, subflavors, dataset_config and split_config given to get_train_dataset or get_val_dataset apply to the dataset that is loaded, and, if the path is that of a metadataset, to all datasets of it.",
  "all files, nesting depths, combinations of arguments",
  "unbounded nesting; all combinations of arguments and configuration files",
  ["task_encoder/loader.py:get_train_dataset", "task_encoder/loader.py:get_val_dataset", "task_encoder/loader.py:_split_kwargs", "metadataset/loader.py:load_dataset"])
# C97
p("A part filter only removes parts",
  "With a part_filter the dataset delivers the same samples in the same order, with the same keys, restore keys and positions; each has exactly the parts the filter accepts and that could be read. A failing part is left out if the handler returns; otherwise the samples before are delivered and then the exception is raised. Restoring a sample by its key gives the sample that was delivered.",
  "all shards, slices, part filters, failures of reading, handlers",
  "all files and filters, also filters that reject all parts of a sample",
  ["flavors/webdataset/single_shard_reader.py:SingleShardReader.read_next", "flavors/webdataset/sample_loader.py:WebdatasetSampleLoaderDataset.restore_sample"])
# C98
p("Python files of datasets are evaluated once",
  "A sample_loader or part_filter given as 'file:function' is the function of this name of the file in the .nv-meta directory of the dataset, local or remote; without a function name the default name is taken. In one process each file is evaluated at most once without an exception: all datasets get the same function objects, from the content of the file when it was first asked for and could be evaluated, whatever happens to the file afterwards; a file that could not be evaluated is tried again. Without a relative path the current directory is used.",
  "all strings, directories and remotes, all histories of asking for functions and of changes of the files",
  "all histories and file contents; function objects are shared between datasets",
  ["module_loader.py:ModuleLoader.get_function", "module_loader.py:ModuleLoader.__getitem__", "module_loader.py:ModuleLoader._load_module", "flavors/webdataset/default_generic_webdataset.py:DefaultGenericWebdataset.__init__"])
# C99
p("The heatmap of analyze-debug counts every logged sample once",
  "energon analyze-debug counts each key of each batch in the logs of the loader once, at the row of its number (in the order of first occurrence) and the column of its step, both divided by the smallest powers of two for which everything fits into the given size, in the colour of its log; everything counted is in the saved image. --skip leaves out the first steps; without keys of batches, or with --force-loading-order, the same is done for the order of loading.",
  "all numbers and contents of logs, sizes of the heatmap, numbers of samples and steps",
  "unbounded logs; the heatmap is rescaled in place an unbounded number of times",
  ["tools/analyze_debug.py:AutosizingHeatmapWriter.add", "tools/analyze_debug.py:AutosizingHeatmapWriter.save", "tools/analyze_debug.py:LoaderLogIter.log_entries", "tools/analyze_debug.py:command", "tools/analyze_debug.py:_iter_sl_log_line_keys"])
# C100
p("The debug logs name the samples that are delivered",
  "For everything a loader delivers, samples, batches, dicts with keys, and lists of these, the debug log contains the keys of exactly the samples in it.",
  "all values delivered by loaders",
  "all shapes of user-defined samples and batches",
  ["wrappers/log_sample_dataset.py:default_get_keys", "savable_loader.py:SavableDataLoader.__iter__", "savable_loader.py:BasicDataLoader.__iter__"])
# C101
p("energon info describes what is loaded",
  "energon info prints, for a prepared dataset, for each split part the number of shards and of samples that loading this part gives, the share of all samples (rounded), the total numbers, and the total size of the shards with the largest fitting unit.",
  "all shard counts, split.yaml files (with excluded shards, brace patterns), file sizes",
  "all configuration files and sizes; rounding of doubles",
  ["tools/info.py:command", "tools/info.py:fmt_size", "flavors/webdataset/base_webdataset.py:BaseWebdatasetFactory"])
# C102
p("What the dialog of energon prepare writes can be loaded",
  "Whatever parts were found in the shards, whatever sample type is chosen (or crude samples) and whatever is answered: when the dialog of energon prepare ends, the written dataset.yaml is accepted when the dataset is loaded, every part asked for is one that was found, and the constructor of the sample class gets exactly its arguments. With a sample loader the written part filter keeps the parts that were found.",
  "all sets of parts, sample classes, sequences of answers",
  "all sequences of answers, including rejected and unusual ones",
  ["tools/prepare.py:command", "flavors/webdataset/default_generic_webdataset.py:DefaultGenericWebdataset.__init__", "flavors/webdataset/field_access.py"])
# C103
p("What energon prepare finds in the shards is in them",
  "energon prepare lists exactly the shards that could be processed and contain a sample, with their number of samples, each with an index; the kinds of parts it reports occur in these shards, all of them if fewer than fifty are reported; the samples it shows are the samples of the shards, in order, with the parts they have when loaded.",
  "all tar files, numbers of shards, failures while reading or completing the index",
  "all contents of files and all points of failure",
  ["flavors/webdataset/prepare.py:WebdatasetPreparator._preprocess_tar", "flavors/webdataset/prepare.py:WebdatasetPreparator.iter_dataset_content", "flavors/webdataset/prepare.py:WebdatasetPreparator.prepare_dataset"])
# C104
p("Virtual epochs through a loader",
  "For a training dataset that always delivers a next batch: with virtual_epoch_length=L every complete for loop over a training loader of a rank, with any number of worker processes and in any schedule, delivers exactly L batches and ends, and the next loop can be made. The batches of the workers come strictly in turns. Each worker goes on in the next loop where it was: over all loops its batches are those of the dataset without virtual epochs, none lost and none repeated.",
  "all datasets, task encoders, epoch lengths, ranks, numbers of workers and of loops, schedules of the worker processes",
  "unbounded numbers of loops and all interleavings of processes",
  ["task_encoder/base.py:TaskEncoder.build_train_datasets", "wrappers/epochize_dataset.py:EpochizeDataset", "savable_loader.py:SavableDataLoader.__iter__", "savable_loader.py:BasicDataLoader.__iter__"])
# C105
p("The length of a loader",
  "len(loader) is the number of batches that every complete for loop over the loader delivers: for a validation loader whose functions skip nothing (without packing and grouping), and for a training loader with virtual epochs.",
  "all datasets, batch sizes, limits, epoch lengths, ranks, numbers of workers and of loops, schedules of the worker processes",
  "an arithmetic formula against what all workers deliver in all schedules, for unbounded sizes",
  ["wrappers/batch_dataset.py:BatchDataset.__len__", "wrappers/limit_dataset.py:LimitDataset.__len__", "wrappers/concat_dataset.py:ConcatDataset.__len__", "wrappers/epochize_dataset.py:EpochizeDataset.__len__", "flavors/webdataset/sample_loader.py:WebdatasetSampleLoaderDataset.__len__", "savable_loader.py:SavableDataLoader"])
# C106
p("energon prepare takes the tar files of the dataset",
  "energon prepare processes exactly the tar files (named *.tar or *.tgz) below the directory of the dataset, at any depth, each once, in the order of their paths, except for those matching --exclude; the names it lists address these files, and loading can read them. --tar-index-only makes the indices again for exactly the listed shards.",
  "all directory trees, directories of datasets (local or remote), exclude expressions",
  "all file and directory names, including those with special characters",
  ["tools/prepare.py:command", "epathlib/epath.py:EPath.glob", "epathlib/epath.py:EPath.__lt__", "flavors/webdataset/prepare.py:WebdatasetPreparator.prepare_dataset", "flavors/webdataset/itar.py:open_itar"])
# C107
p("Random numbers of user functions after resuming",
  "If user functions draw from the global random generators (torch, numpy, random), a loader restored from a saved state in a new process delivers the same batches, with the same random numbers, as the loader that was not interrupted.",
  "all datasets that resume exactly, functions drawing any amount of numbers, histories of saves and restores, schedules of the worker processes",
  "every point of saving, all histories of restores and all prefetching schedules",
  ["savable_loader.py:SavableDatasetWrapper._save_state", "savable_loader.py:SavableDatasetWrapper._restore_state", "savable_loader.py:SimpleSavableDatasetWrapper.save_state", "savable_loader.py:_init_worker", "rng.py:SystemRng"])
# C108
p("Joined datasets in training and validation",
  "Datasets joined sample by sample behave like one dataset of tuples: joining is refused unless the datasets have equally many shards with equal counts; over all ranks and workers each joined sample is delivered exactly once per validation, with the samples of the same number from all datasets; training on joined datasets (also blended with others) can be saved at any point and goes on exactly, including slices that are open in the middle",
  "all joined datasets with any number of columns, blends, task encoders, ranks, workers, histories of saves and restores",
  "all dataset shapes, worker counts and points of saving; a test fixes one dataset, one shuffle size and one point",
  ["flavors/webdataset/joined_webdataset.py:JoinedWebdatasetFactory", "flavors/webdataset/sample_loader.py:WebdatasetSampleLoaderDataset._read_multicolumn_shard", "flavors/webdataset/sample_loader.py:WebdatasetSampleLoaderDataset.restore_sample", "task_encoder/base.py:DefaultTaskEncoder.build_train_datasets", "task_encoder/base.py:DefaultTaskEncoder.build_val_datasets"])
# C109
p("Reproducible scaling",
  "A training run can be repeated with another number of ranks (and micro-batches of another size) with the same data: if world_size * num_workers, the global batch size and the seeds stay the same, each training step gets the same global batch",
  "all datasets and blends, task encoders, ways to distribute the workers over ranks, micro-batch sizes, both kinds of loaders, schedules of the worker processes, training steps",
  "all distributions, all lengths of runs and schedules; a test compares two fixed distributions for a few steps",
  ["docs/source/repro_scaling.md", "flavors/webdataset/sharder.py:Sharder.shard_workers", "worker.py:WorkerConfig.worker_seed", "worker.py:WorkerConfig.active_worker_sample_index", "task_encoder/base.py:stateless", "task_encoder/base.py:DefaultTaskEncoder.build_train_datasets"])
# C110
p("Overriding configuration values",
  "override(value, overrides) sets the values named by the keys (with dots, or nested) to what is given for them, converted for their annotations, and leaves everything else as it is; the result is of the annotated type, and every field and element can be set this way",
  "all configuration objects (dataclasses, named tuples, unions, lists, tuples, nested to any depth), all overrides",
  "arbitrarily nested types and keys; a test fixes one type and one key",
  ["typed_converter.py:override", "typed_converter.py:_split_dict_keys", "typed_converter.py:_isinstance_deep"])
# C111
p("Access to remote data",
  "A path rclone://NAME/BUCKET/PATH, and every path derived from it, is accessed with the credentials and at the endpoint of the section NAME of the rclone configuration (the first that exists of the documented places; endpoints without a scheme use https), whatever other sections say; in every process, also forked ones, through a connection of its own; remotes that are unknown or not of type s3 are refused",
  "all configurations, URLs, histories of creating and deriving paths, forking and accessing files",
  "all histories of forks and derived paths, and all contents of the configuration file; a test uses one process and one file",
  ["epathlib/epath.py:EPath.__init__", "epathlib/epath.py:EPath.create_s3fs_from_rclone_remote", "epathlib/epath.py:EPath.fork_guard", "epathlib/rclone_config.py:get_rclone_config_path", "epathlib/rclone_config.py:read_rclone_config_at_path"])
# C112
p("Worker configuration and seeds of a pipeline",
  "All datasets of a pipeline and its loader work for the same rank, number of ranks and number of workers; anything else is refused when they are put together. The workers of a run get different seeds, which depend only on the number of the worker and on seed_offset; shuffling and blending use the seed_offset of the datasets, user code the one of the configuration passed to the loader",
  "all pipelines, worker configurations, ranks, numbers of workers, seed offsets",
  "all ways to put datasets together and all pairs of workers; a test compares a few",
  ["worker.py:WorkerConfig.__eq__", "worker.py:WorkerConfig.worker_seed", "wrappers/base.py:BaseWrapperDataset.__init__", "loader.py:get_savable_loader", "loader.py:get_loader", "savable_loader.py:_init_worker", "savable_loader.py:SavableDataLoader.__init__"])
# C113
p("An interrupted energon prepare is noticed",
  "If `energon prepare` is killed at any point, the dataset afterwards cannot be loaded, or each part is loaded as it was before, or as the complete new preparation makes it: never with some shards or samples silently missing. A preparation that is repeated and comes to its end repairs everything",
  "all datasets, earlier contents of the metadata folder, and points in time at which the process dies, also in the middle of writing a file",
  "all crash points, also between two characters of a file, and all datasets; a test kills the process at a few",
  ["flavors/webdataset/prepare.py:WebdatasetPreparator.prepare_dataset", "tools/prepare.py:command", "dataset_config.py:get_dataset_from_config", "flavors/webdataset/metadata.py:WebdatasetMeta.from_config"])
# C114
p("Pinning memory keeps a batch",
  "With CUDA every batch a loader delivers is pinned (pin_memory=True). The pinned batch is the same as the one the worker made: the same classes, fields, keys, order and contents at every depth, and each tensor in it is in pinned memory",
  "all batches: tensors, dicts, dataclasses, named tuples, lists and tuples, nested to any depth",
  "arbitrarily nested structures; a test fixes a few",
  ["flavors/base_dataset.py:PinMemoryMixin._pin_memory", "savable_loader.py:SavableDataLoader.__init__", "savable_loader.py:BasicDataLoader.__init__"])

# C115
p("config() tells whether datasets have the same settings",
  "config() of a dataset \"can be used to check if datasets have the same settings\": the configs of two datasets are equal exactly if the datasets have the same settings, up to wrappers that do not change the samples (logging, garbage collection); and the config can be written as JSON, so that a loader with logging can be made",
  "all datasets made of the reader and the wrappers, nested to any depth, with all settings",
  "arbitrarily nested datasets and all values of all settings; a test compares a few",
  ["flavors/base_dataset.py:SavableDataset.config", "flavors/base_dataset.py:SavableDataset._function_config", "flavors/webdataset/sample_loader.py:WebdatasetSampleLoaderDataset.config",
   "flavors/webdataset/default_generic_webdataset.py:DefaultGenericWebdatasetFactory.config", "flavors/webdataset/default_decoder_webdataset.py:DefaultDecoderWebdatasetFactory.config",
   "wrappers/group_batch_dataset.py:GroupBatchDataset.config", "wrappers/map_dataset.py:MapDataset.config", "worker.py:WorkerConfig.config", "task_encoder/base.py:TaskEncoder.build_cook_crude_sample", "savable_loader.py:SavableDataLoader.config"])

# C116
p("An exception in a worker process reaches the user once, in its turn",
  "If the dataset of a worker process raises (an error no handler takes), next of the loader raises it exactly once, in its turn behind the samples of that worker before it; no sample of any worker is lost or repeated, next always returns, states saved afterwards count only the samples, and the user can go on iterating with all workers",
  "all numbers of workers, all datasets of the workers with exceptions at any place, all schedules of the processes, any number of calls of next after exceptions",
  "interleavings of processes and exceptions at any place; a test runs one schedule",
  ["savable_loader.py:SavableDataLoader.__iter__", "savable_loader.py:SavableDatasetWrapper.__iter__", "savable_loader.py:SimpleSavableDatasetWrapper.__iter__"])

# C117
p("energon preview shows the samples of the dataset until the user stops",
  "energon preview shows the samples of the given split parts in order, the next one after each yes to Continue?; after a no (or Ctrl-C) nothing more is shown. Every sample can be shown, and pictures are resized to fit the terminal",
  "all split parts and samples, nested values of any depth, all sequences of answers, all sizes of pictures and terminals",
  "arbitrary interactions, nested values and sizes; a test fixes a few",
  ["tools/preview.py:command", "tools/preview.py:to_str", "tools/preview.py:pprint"])

# C118
p("get_val_datasets gives every dataset on its own",
  "get_val_datasets returns one validation dataset per source dataset, in the order of the sources and with its source beside it. Every pass over the j-th of them, over all workers of all ranks, uses exactly the samples of the j-th source, each once; no batch mixes sources, and batch size, dropping of the last batch and limit count for each dataset by itself. All of them together use the same samples as get_val_dataset",
  "all lists of datasets, numbers of ranks and workers, batch sizes, limits, task encoders and passes",
  "all partitions of all datasets over all ranks and workers; a test fixes one",
  ["task_encoder/loader.py:get_val_datasets", "task_encoder/base.py:TaskEncoder.build_val_datasets"])

# C119
p("After an exception in a worker process the state can be saved and resumed",
  "When the dataset of a worker process has raised, save_state of the loader works at any time, and a new loader restored from the state goes on without loss: if the exception has not been delivered yet, with exactly the samples that are missing before it; if it has, with what the dataset of the worker delivers after the exception, numbered on",
  "all datasets that resume exactly, places of the exception, histories of saves and restores, timings of checkpoints and prefetching",
  "all interleavings of prefetching, checkpoints, exceptions and saves; a test runs one",
  ["savable_loader.py:SavableDatasetWrapper.__iter__", "savable_loader.py:SavableDatasetWrapper._store_checkpoint", "savable_loader.py:SavableDatasetWrapper.get_checkpoint", "savable_loader.py:SavableDataLoader.save_state_rank"])
# C120
p("Messages of errors about samples are short",
  "The text by which an error names a sample is bounded in length by the depth, the number of entries and the text length that are shown, however many and however long fields the sample has and however deep it is nested; the first entries are shown in order, and small values completely",
  "all samples: dicts, lists and texts of any size and depth, with any other values in them",
  "unbounded sizes and depths of the samples; a test prints a few",
  ["errors.py:compact_str", "errors.py:SampleException.from_sample", "flavors/webdataset/field_access.py:field_access"])
# C121
p("Regular garbage collection bounds the memory of a pass",
  "A dataset wrapped for garbage collection every n samples frees every object that nothing refers to any more after at most n more samples, never one that is still used, and its memory stays bounded however long the pass is; objects are frozen only while a pass of a freezing dataset runs, however it ends; in a worker process that has not been prepared it delivers nothing",
  "any number of wrapped datasets in a process, all interleavings of their passes, of objects created and dropped by everything else, of automatic collections, and all ends of passes",
  "all interleavings and lengths of passes; a test observes one",
  ["wrappers/gc_dataset.py:GcDataset.__iter__", "wrappers/gc_dataset.py:gc_init_worker", "wrappers/gc_dataset.py:GcFreezeError"])
# C122
p("Training with virtual epochs can be saved and resumed in any epoch",
  "With virtual_epoch_length, the state of the loader can be saved in any epoch, and a new loader restored from it first delivers exactly the rest of the epoch that was current, then full epochs: each worker goes on behind the batches that have been delivered to the user, nothing is lost or repeated, and the epochs end where they end without the interruption",
  "all datasets and task encoders that resume exactly, worker configurations, epoch lengths, histories of epochs, saves and restores, timings of checkpoints and prefetching",
  "all positions of saves relative to the ends of the epochs of all workers, and all interleavings; a test runs one",
  ["savable_loader.py:SavableDatasetWrapper.__iter__", "savable_loader.py:SavableDatasetWrapper._store_checkpoint", "savable_loader.py:SavableDatasetWrapper.get_checkpoint", "savable_loader.py:SavableDataLoader.__iter__", "savable_loader.py:SavableDataLoader.save_state_rank", "wrappers/epochize_dataset.py:EpochizeDataset"])

# C123
p("Validation through worker processes can be saved and resumed in any loop",
  "A savable loader without virtual epochs (validation) can be saved in any loop or between two loops, and a new loader restored from it first delivers exactly the rest of the pass that was current and then, in each further loop, all samples of all workers; what the first loop delivers does not depend on how fast the workers were or when checkpoints were stored",
  "all datasets that resume exactly or up to the end of a pass, worker configurations, histories of loops, saves and restores, timings of checkpoints and prefetching",
  "all positions of saves relative to the ends of the passes of all workers, all timers and interleavings; a test runs one",
  ["savable_loader.py:SavableDatasetWrapper.__iter__", "savable_loader.py:SavableDatasetWrapper._store_checkpoint", "savable_loader.py:SavableDatasetWrapper.get_checkpoint", "savable_loader.py:SavableDataLoader.__iter__", "savable_loader.py:SavableDataLoader.save_state_rank", "task_encoder/base.py:DefaultTaskEncoder.build_val_datasets"])

# C124
p("ignore_decoder_errors decides whether samples that cannot be decoded are left out",
  "With ignore_decoder_errors a sample whose files cannot be decoded is left out and all others are delivered in order, whatever the error handler does; errors of the system are never ignored; with auto_decode off the decoder is not used at all",
  "all readers, samples, decoders, error handlers and states of the dataset",
  "all decoders and all positions of samples that cannot be decoded",
  ["flavors/webdataset/default_decoder_webdataset.py:DefaultDecoderWebdatasetFactory.load_sample", "flavors/webdataset/default_decoder_webdataset.py:DefaultDecoderWebdatasetFactory._decode_error_handler", "flavors/webdataset/base_webdataset.py:BaseWebdatasetFactory.build", "flavors/webdataset/error_handler.py:ErrorHandler"])

# C125
p("A sample says truly where it comes from",
  "Whatever files a sample has and whatever its sample loader returns, the loaded sample has the restore key of the place it was read from and the subflavors of its dataset; its key is the one the sample loader returns, and otherwise that of the file. A crude sample has besides these exactly its decoded files, and a cooker that passes on basic_sample_keys keeps key, restore key and subflavors",
  "all files of a sample (names, order, repeated names), part filters, decoders, sample loaders, sample classes, cookers",
  "all names of files and all results of user functions",
  ["flavors/webdataset/single_shard_reader.py:WebdatasetSampleLoaderShardReader.read_next", "flavors/webdataset/default_generic_webdataset.py:DefaultGenericWebdatasetFactory.load_sample", "flavors/crude.py:CrudeWebdataset", "task_encoder/cooking.py:basic_sample_keys"])
