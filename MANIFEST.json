{
 "claims": [
  {
   "property": "C01",
   "status": "proved",
   "theorems": [
    "Verif.Sharder.C01_workers_partition_dataset",
    "Verif.Sharder.C01_no_shards",
    "Verif.Sharder.C01_bytes"
   ],
   "note": ""
  },
  {
   "property": "C02",
   "status": "proved",
   "theorems": [
    "Verif.Sharder.C02_workers_balanced"
   ],
   "note": ""
  },
  {
   "property": "C03",
   "status": "proved",
   "theorems": [
    "Verif.Sharder.C03_only_global_index_matters"
   ],
   "note": ""
  },
  {
   "property": "C04",
   "status": "partial",
   "theorems": [
    "Verif.Sharder.C04_violated",
    "Verif.Sharder.C04_violated_run",
    "Verif.Sharder.C04_split_covers_partial",
    "Verif.Sharder.C04_no_duplicates_partial"
   ],
   "note": "False of the code (C04_violated: rounding in doubles loses the last sample of a shard; C04_violated_run: of a whole run). Proved: nothing else is lost, the order is kept, no sample is used twice, and nothing is lost if the number of slices divides the number of samples or the shard is not split."
  },
  {
   "property": "C05",
   "status": "proved",
   "theorems": [
    "Verif.Sharder.C05_slices_bounded"
   ],
   "note": ""
  },
  {
   "property": "C06",
   "status": "proved",
   "theorems": [
    "Verif.Sharder.C06_blend_balanced"
   ],
   "note": ""
  },
  {
   "property": "C07",
   "status": "proved",
   "theorems": [
    "Verif.Worker.C07_indices_unique",
    "Verif.Worker.C07_indices_increase",
    "Verif.Worker.C07_worker_ids",
    "Verif.Worker.C07_global_ids",
    "Verif.Worker.C07_global_worker_id",
    "Verif.Worker.C07_override",
    "Verif.Worker.C07_counters_increase",
    "Verif.Worker.C07_outside"
   ],
   "note": "worker ids and exposed indices"
  },
  {
   "property": "C08",
   "status": "proved",
   "theorems": [
    "Verif.Worker.C08_scopes_bracketed",
    "Verif.Worker.C08_next_call"
   ],
   "note": "dynamic index stack refines lexical scoping"
  },
  {
   "property": "C09",
   "status": "partial",
   "theorems": [
    "Verif.Worker.C09_cyclic_partial",
    "Verif.Worker.C09_first_worker",
    "Verif.Worker.C09_violated"
   ],
   "note": "the order after a restore is cyclic, but starts at the wrong worker unless 2*k mod n = 0 (bug in rank_worker_id); the full claim is false of the code"
  },
  {
   "property": "C10",
   "status": "proved",
   "theorems": [
    "Verif.Stream.C10_shuffle_pass",
    "Verif.Stream.C10_shuffle_items"
   ],
   "note": ""
  },
  {
   "property": "C100",
   "status": "partial",
   "theorems": [
    "Verif.Debug.C100_batch_partial",
    "Verif.Debug.C100_violated_sample",
    "Verif.Debug.C100_violated_dict",
    "Verif.Debug.C100_violated_list"
   ],
   "note": "Proved for batches with a list of keys. False for single samples (no key), dicts with a string as key (its characters), lists (only the first element; an empty list is an exception)."
  },
  {
   "property": "C101",
   "status": "partial",
   "theorems": [
    "Verif.Prep.C101_size_partial",
    "Verif.Prep.C101_percent",
    "Verif.Prep.C101_printed",
    "Verif.Prep.C101_loads_partial",
    "Verif.Prep.C101_prepared",
    "Verif.Prep.C101_violated_size",
    "Verif.Prep.C101_violated_exclude",
    "Verif.Prep.C101_violated_braces"
   ],
   "note": "Proved for sizes below 1 PiB, without excluded shards and without brace patterns (so for everything energon prepare writes itself). False otherwise."
  },
  {
   "property": "C102",
   "status": "partial",
   "theorems": [
    "Verif.Config.C102_accepted_partial",
    "Verif.Config.C102_parts_partial",
    "Verif.Config.C102_sample_partial",
    "Verif.Config.C102_template",
    "Verif.Config.C102_violated_crude",
    "Verif.Config.C102_violated",
    "Verif.Config.C102_violated_brackets"
   ],
   "note": "Proved for all sample classes and, for the parts, for answers of the documented form. False for crude samples and for answers with a missing bracket."
  },
  {
   "property": "C103",
   "status": "partial",
   "theorems": [
    "Verif.Wds.C103_shown",
    "Verif.Wds.C103_shown_count",
    "Verif.Wds.C103_parts",
    "Verif.Wds.C103_listed_partial",
    "Verif.Wds.C103_violated"
   ],
   "note": "Everything proved except for exceptions while the index is completed, where the listing is wrong."
  },
  {
   "property": "C104",
   "status": "proved",
   "theorems": [
    "Verif.Pipeline.C104_virtual_epochs",
    "Verif.Pipeline.C104_epochs_join",
    "Verif.Pipeline.C104_accepting"
   ],
   "note": "For all datasets, task encoders (grouping, packing, generators included), loaders (basic, savable, with and without worker processes), numbers of complete loops and schedules. That a dataset always delivers is C77, given as C104_accepting; loops left early are C80."
  },
  {
   "property": "C105",
   "status": "partial",
   "theorems": [
    "Verif.Pipeline.C105_delivered",
    "Verif.Pipeline.C105_val_len_partial",
    "Verif.Pipeline.C105_train_len",
    "Verif.Pipeline.C105_violated_last",
    "Verif.Pipeline.C105_violated_datasets",
    "Verif.Pipeline.C105_violated_limit"
   ],
   "note": "Proved for training loaders with virtual epochs (all task encoders), and for validation loaders without packing and grouping whose functions neither skip nor multiply: for batches of one sample, or a single dataset whose last batches are dropped or whose samples divide evenly among the workers, without limit or with a limit of which each worker can fill its share. False otherwise: the formula for undivided samples is wrong (C105_violated_last), the samples of several datasets are not evenly distributed (C105_violated_datasets), the shares of the limit do not follow the shares of the samples (C105_violated_limit). What is delivered in all these cases: C105_delivered."
  },
  {
   "property": "C106",
   "status": "partial",
   "theorems": [
    "Verif.Path.C106_collected_partial",
    "Verif.Path.C106_opened_partial",
    "Verif.Path.C106_index_only",
    "Verif.Path.C106_violated_magic",
    "Verif.Path.C106_violated_braces",
    "Verif.Path.C106_violated_tgz"
   ],
   "note": "Proved for directories whose path has none of * ? [ and for names without braces and backslashes. False otherwise: the path of the dataset is read as a pattern (C106_violated_magic), found names are brace-expanded (C106_violated_braces), compressed tar files are prepared but cannot be loaded (C106_violated_tgz). The behaviour of fsspec's glob and of braceexpand is modelled from their documentation."
  },
  {
   "property": "C107",
   "status": "partial",
   "theorems": [
    "Verif.Loader.C107_worker_resumes",
    "Verif.Loader.C107_stream",
    "Verif.Loader.C107_in_order",
    "Verif.Loader.C107_loader_partial",
    "Verif.Loader.C107_loader_streams_partial",
    "Verif.Loader.C107_main_partial",
    "Verif.Loader.C107_violated_main"
   ],
   "note": "Holds with worker processes, within the limits of C36 (bugs in the order of the workers and for workers that have not delivered a sample). False without worker processes: the generators are not saved. Modelled for functions applied last; functions before a buffer are required to be stateless by the library (C46, C83)."
  },
  {
   "property": "C108",
   "status": "partial",
   "theorems": [
    "Verif.Wds.C108_slice_resumes",
    "Verif.Pipeline.C108_refuses",
    "Verif.Pipeline.C108_val_partial",
    "Verif.Pipeline.C108_train_resumes_partial",
    "Verif.Pipeline.C108_violated_shuffle",
    "Verif.Pipeline.C108_violated_training"
   ],
   "note": "Violated with a shuffle buffer: every state saved after a delivered sample makes the next sample an error (wrong restore key). Partial: validation with the limits of C68, training without shuffle buffer and packing."
  },
  {
   "property": "C109",
   "status": "partial",
   "theorems": [
    "Verif.Pipeline.C109_same_dataset",
    "Verif.Pipeline.C109_rank_partial",
    "Verif.Pipeline.C109_global_batches_partial",
    "Verif.Pipeline.C109_same_global_batches_partial",
    "Verif.Pipeline.C109_global_samples_partial",
    "Verif.Pipeline.C109_accepting",
    "Verif.Pipeline.C109_violated_restore_seeds",
    "Verif.Pipeline.C109_rank",
    "Verif.Pipeline.C109_violated_epochs"
   ],
   "note": "Proved for functions that do not look at current_sample_index, without virtual epochs or with epochs whose length is a multiple of the workers of a rank; also for other micro-batch sizes; C109_rank says what each rank gets for every epoch length. False for functions that use the index or @stateless(restore_seeds=True), and for other epoch lengths (counterexamples). Continuing a saved run with another number of ranks is not offered by the API."
  },
  {
   "property": "C11",
   "status": "partial",
   "theorems": [
    "Verif.Stream.C11_violated",
    "Verif.Stream.C11_shuffle_before_drain_partial",
    "Verif.Stream.C11_shuffle_resumes_partial"
   ],
   "note": "false while the buffer is drained at the end of a finite pass of the source; proved for endless sources and before the drain"
  },
  {
   "property": "C110",
   "status": "partial",
   "theorems": [
    "Verif.Config.C110_only_named_partial",
    "Verif.Config.C110_named_partial",
    "Verif.Config.C110_texts",
    "Verif.Config.C110_typed_partial",
    "Verif.Config.C110_accepted",
    "Verif.Config.C110_empty",
    "Verif.Config.C110_violated_any",
    "Verif.Config.C110_violated_none",
    "Verif.Config.C110_violated_optional_list",
    "Verif.Config.C110_violated_append",
    "Verif.Config.C110_violated_empty_list",
    "Verif.Config.C110_violated_dict",
    "Verif.Config.C110_violated_tuple",
    "Verif.Config.C110_violated_mixed",
    "Verif.Config.C110_violated_dash",
    "Verif.Config.C110_violated_derived",
    "Verif.Config.C110_index",
    "Verif.Config.C110_union_texts",
    "Verif.Config.C110_union_rest",
    "Verif.Config.C110_any_texts",
    "Verif.Config.C110_union_value",
    "Verif.Config.C110_wrong_index",
    "Verif.Config.C110_dict_new",
    "Verif.Config.C110_dict_pair"
   ],
   "note": "Proved for annotations made of dataclasses, named tuples, unions, lists and tuples (without Any, untyped lists, structured elements of tuples of fixed size, derived classes; what is inside of dicts is left out) and, for the values, single values for keys with dots. False of the code otherwise: Any, setting optional values to None, lists in unions, adding elements, dicts, tuples of fixed size, mixed keys, - beside _, derived classes (C110_violated_...)."
  },
  {
   "property": "C111",
   "status": "partial",
   "theorems": [
    "Verif.Path.C111_location",
    "Verif.Path.C111_credentials_partial",
    "Verif.Path.C111_endpoint_partial",
    "Verif.Path.C111_escaped",
    "Verif.Path.C111_every_access",
    "Verif.Path.C111_violated_percent",
    "Verif.Path.C111_violated_http",
    "Verif.Path.C111_violated_reuse",
    "Verif.Path.C111_violated_above",
    "Verif.Path.C111_access_happens",
    "Verif.Path.C111_references"
   ],
   "note": "Proved for configurations without %, endpoints with a scheme or not starting with http, and as long as the operating system does not use numbers of processes again. False of the code otherwise, and for .. above the remote (C111_violated_...)."
  },
  {
   "property": "C112",
   "status": "partial",
   "theorems": [
    "Verif.Worker.Seed.C112_one_place",
    "Verif.Worker.Seed.C112_refused",
    "Verif.Worker.Seed.C112_loader",
    "Verif.Worker.Seed.C112_seeds",
    "Verif.Worker.Seed.C112_texts",
    "Verif.Worker.Seed.C112_user_seeds",
    "Verif.Worker.Seed.C112_violated_offset",
    "Verif.Worker.Seed.C112_violated_mixed",
    "Verif.Worker.Seed.C112_violated_other",
    "Verif.Worker.Seed.C112_violated_main"
   ],
   "note": "Proved except for the configuration passed to a loader, which is ignored, seed offsets that differ inside of a pipeline, which are accepted, and loaders without worker processes, which seed nothing (C112_violated_...). Different seeds up to collisions of the hash."
  },
  {
   "property": "C113",
   "status": "partial",
   "theorems": [
    "Verif.Prep.C113_complete",
    "Verif.Prep.C113_first",
    "Verif.Prep.C113_first_refused",
    "Verif.Prep.C113_again_partial",
    "Verif.Prep.C113_violated_split",
    "Verif.Prep.C113_violated_info"
   ],
   "note": "First preparations: proved for every point in time. Repeated preparations: the full statement (C113_statement) is false of the code, C113_again_partial says what can be loaded."
  },
  {
   "property": "C114",
   "status": "partial",
   "theorems": [
    "Verif.Sample.Pin.C114_pinned_partial",
    "Verif.Sample.Pin.C114_violated_dict",
    "Verif.Sample.Pin.C114_violated_init",
    "Verif.Sample.Pin.C114_violated_post",
    "Verif.Sample.Pin.C114_violated_others",
    "Verif.Sample.Pin.C114_violated"
   ],
   "note": "Proved for all nested batches of tensors, plain dicts, dataclasses (all fields with init, no __post_init__), named tuples, lists, tuples. False of the code for derived dicts, fields with init=False, __post_init__ that changes fields, dataclass types, and tensors in other containers (counterexamples)."
  },
  {
   "property": "C115",
   "status": "partial",
   "theorems": [
    "Verif.Describe.C115_config_partial",
    "Verif.Describe.C115_same_settings",
    "Verif.Describe.C115_loader",
    "Verif.Describe.C115_factory_partial",
    "Verif.Describe.C115_logged",
    "Verif.Describe.C115_violated_loader",
    "Verif.Describe.C115_violated_group",
    "Verif.Describe.C115_violated_seed",
    "Verif.Describe.C115_violated_functions",
    "Verif.Describe.C115_violated_exclude",
    "Verif.Describe.C115_violated_condition",
    "Verif.Describe.C115_violated"
   ],
   "note": "Two datasets have equal configs exactly if they agree in the settings listed in Spec.lean (Ds.told), for datasets nested to any depth; the same settings always give the same config; a loader with logging can be made exactly if configs added by user code can be written as JSON. False for the other settings: counterexamples for sample loaders and field maps, the size of grouped batches, seed_offset, functions with the same name, the order of exclude, and conditions of cookers."
  },
  {
   "property": "C116",
   "status": "partial",
   "theorems": [
    "Verif.Loader.C116_results",
    "Verif.Loader.C116_reported",
    "Verif.Loader.C116_end",
    "Verif.Loader.C116_returns",
    "Verif.Loader.C116_books",
    "Verif.Loader.C116_violated_lost",
    "Verif.Loader.C116_violated"
   ],
   "note": "Proved for all schedules: every exception is raised once, in its turn; nothing else is lost; next returns; saved counters count only samples. False of the code for going on with all workers: the worker that raised delivers nothing until the iteration is over for all workers (C116_violated_lost)."
  },
  {
   "property": "C117",
   "status": "partial",
   "theorems": [
    "Verif.Preview.C117_part",
    "Verif.Preview.C117_all",
    "Verif.Preview.C117_shows",
    "Verif.Preview.C117_fits",
    "Verif.Preview.C117_violated_exit",
    "Verif.Preview.C117_violated_values",
    "Verif.Preview.C117_violated_wide",
    "Verif.Preview.C117_violated_high",
    "Verif.Preview.C117_violated"
   ],
   "note": "Proved: one split part is shown in order up to the first no; with yes everything of all parts; exactly which values can be shown and which pictures fit. False of the code: after no the next part is shown; named tuples and pictures of one color end the preview with an error; wide and high pictures do not fit."
  },
  {
   "property": "C118",
   "status": "partial",
   "theorems": [
    "Verif.Pipeline.C118_each_exactly_once_partial",
    "Verif.Pipeline.C118_each_at_most_once_partial",
    "Verif.Pipeline.C118_same_samples_partial",
    "Verif.Pipeline.C118_each_contents_partial"
   ],
   "note": "Proved for all lists of healthy datasets, ranks, workers, batch sizes and passes. Missing, as for C67/C68: generator functions in the exactly-once statements (contents are covered), max_samples_per_sequence (false, see C67)."
  },
  {
   "property": "C119",
   "status": "partial",
   "theorems": [
    "Verif.Loader.C119_exact_partial",
    "Verif.Loader.C119_available_partial",
    "Verif.Loader.C119_saved_partial",
    "Verif.Loader.C119_loader_partial",
    "Verif.Loader.C119_loader_saved_partial",
    "Verif.Loader.C119_violated_save",
    "Verif.Loader.C119_violated_first",
    "Verif.Loader.C119_violated_silent"
   ],
   "note": "Proved for one worker, and for the loader with any number of workers and all schedules, over all histories of saves, restores and exceptions, with all states the exceptions leave the dataset in. False as stated: saving while the exception is still in the queue can fail, or loses the exception; before the first sample one is skipped (counterexamples). Missing: ends of passes (as C36)."
  },
  {
   "property": "C12",
   "status": "proved",
   "theorems": [
    "Verif.Stream.C12_filter_pass",
    "Verif.Stream.C12_filter_items",
    "Verif.Stream.C12_filter_resumes",
    "Verif.Stream.C12_log_pass",
    "Verif.Stream.C12_log_items",
    "Verif.Stream.C12_log_resumes",
    "Verif.Stream.C12_gc_pass",
    "Verif.Stream.C12_gc_resumes"
   ],
   "note": ""
  },
  {
   "property": "C120",
   "status": "partial",
   "theorems": [
    "Verif.Message.C120_short_partial",
    "Verif.Message.C120_default_partial",
    "Verif.Message.C120_depth",
    "Verif.Message.C120_items",
    "Verif.Message.C120_complete",
    "Verif.Message.C120_violated_bytes",
    "Verif.Message.C120_violated_special"
   ],
   "note": "For dicts, lists and texts of any size and depth. Violated (proved) by values of other types (bytes, tuples, sample classes) and by keys beginning with __, which are written completely."
  },
  {
   "property": "C121",
   "status": "partial",
   "theorems": [
    "Verif.Gc.C121_safe",
    "Verif.Gc.C121_collected",
    "Verif.Gc.C121_unfrozen",
    "Verif.Gc.C121_memory_partial",
    "Verif.Gc.C121_worker",
    "Verif.Gc.C121_violated_passes",
    "Verif.Gc.C121_violated_unfreeze",
    "Verif.Gc.C121_violated_user",
    "Verif.Gc.C121_frozen_partial"
   ],
   "note": "Within a pass. The memory bound is for datasets that do not freeze. Violated (proved) across passes shorter than n, and for freezing when several freezing datasets or the user freeze objects."
  },
  {
   "property": "C122",
   "status": "partial",
   "theorems": [
    "Verif.Loader.C122_worker_exact",
    "Verif.Loader.C122_worker_goes_on",
    "Verif.Loader.C122_worker_saved_partial",
    "Verif.Pipeline.C122_training_worker_partial",
    "Verif.Loader.C122_loader_passes",
    "Verif.Loader.C122_loader_streams",
    "Verif.Loader.C122_loader_order",
    "Verif.Loader.C122_loader_length",
    "Verif.Loader.C122_loader_rounds",
    "Verif.Loader.C122_loader_first",
    "Verif.Loader.C122_loader_saved_partial",
    "Verif.Loader.C122_loader_goes_on",
    "Verif.Pipeline.C122_training_loader_partial",
    "Verif.Pipeline.C122_violated_rest"
   ],
   "note": "Each worker process, over any number of epochs and restores: it answers exactly the batches behind those delivered, the ends of the epochs where they are without interruption; the state can be saved unless the worker has reached the end of an epoch whose batches have not all been delivered (false there: C37_violated_end). An end that is due when the state is saved is left out (C36_violated_end). Task encoders without generator functions and grouping (C65). The whole loader with any number of loops per life: streams, lengths and order of all loops, saving in and between loops. Not as stated when one worker has delivered its share of the epoch and another not (C122_violated_rest), and the order of later epochs after restoring with a next worker other than 0 (C122_loader_first)."
  },
  {
   "property": "C123",
   "status": "partial",
   "theorems": [
    "Verif.Loader.C123_worker_exact",
    "Verif.Loader.C123_loader_partial",
    "Verif.Loader.C123_loader_between",
    "Verif.Pipeline.C123_val_loader_partial",
    "Verif.Loader.C123_violated_timing",
    "Verif.Pipeline.C123_violated_several",
    "Verif.Pipeline.C123_violated_limit",
    "Verif.Pipeline.C123_violated_packing",
    "Verif.Pipeline.C123_violated_grouping"
   ],
   "note": "Any number of loops, saves and restores, for datasets that resume exactly or up to the end of a pass; not saved while the user has all samples of a worker and the worker has not answered with the end of its pass: then the first loop depends on the timer (C123_violated_timing). Behind the end of a loop saving is always possible and all later loops are complete. For validation datasets: one dataset, no packing, grouping or generator functions. A limit is covered if drop_last is set; without it, and with several datasets, the property fails (C123_violated_limit, C123_violated_several). With packing or grouping it fails too (C123_violated_packing, C123_violated_grouping)."
  },
  {
   "property": "C124",
   "status": "partial",
   "theorems": [
    "Verif.Decode.C124_ignored_partial",
    "Verif.Decode.C124_no_effect",
    "Verif.Decode.C124_no_decoder",
    "Verif.Decode.C124_system",
    "Verif.Decode.C124_violated",
    "Verif.Decode.C124_violated_raises"
   ],
   "note": "Samples that cannot be decoded are left out if the error handler returns, whatever ignore_decoder_errors is (C124_ignored_partial, C124_no_effect); with the default handler the property fails (C124_violated, C124_violated_raises)."
  },
  {
   "property": "C125",
   "status": "partial",
   "theorems": [
    "Verif.Identity.C125_origin_partial",
    "Verif.Identity.C125_key_partial",
    "Verif.Identity.C125_crude_partial",
    "Verif.Identity.C125_cooked",
    "Verif.Identity.C125_cooked_origin_partial",
    "Verif.Identity.C125_violated_file",
    "Verif.Identity.C125_violated"
   ],
   "note": "Proved for all samples without a file named like a basic field that the part filter admits, which is missing in general: such a file replaces the restore key (C125_violated_file, C125_violated)."
  },
  {
   "property": "C13",
   "status": "proved",
   "theorems": [
    "Verif.Stream.C13_map_pass",
    "Verif.Stream.C13_map_items",
    "Verif.Stream.C13_map_fatal",
    "Verif.Stream.C13_map_resumes"
   ],
   "note": ""
  },
  {
   "property": "C14",
   "status": "partial",
   "theorems": [
    "Verif.Stream.C14_generator_pass",
    "Verif.Stream.C14_generator_items",
    "Verif.Stream.C14_generator_resumes_partial",
    "Verif.Stream.C14_violated_index",
    "Verif.Stream.C14_violated_skip",
    "Verif.Stream.C14_violated_next_pass"
   ],
   "note": "The code violates the full statement (index off by one on resume; exceptions of a resumed generator are not handled; stale generator state after a failed last group). Proved: what is delivered; contents resume exactly for functions that ignore the index and do not skip."
  },
  {
   "property": "C15",
   "status": "proved",
   "theorems": [
    "Verif.Stream.C15_blend_faithful",
    "Verif.Stream.C15_blend_never_ends",
    "Verif.Stream.C15_blend_productive"
   ],
   "note": ""
  },
  {
   "property": "C16",
   "status": "proved",
   "theorems": [
    "Verif.Stream.C16_blend_resumes"
   ],
   "note": ""
  },
  {
   "property": "C17",
   "status": "partial",
   "theorems": [
    "Verif.Stream.C17_blend_restores_partial",
    "Verif.Stream.C17_violated",
    "Verif.Stream.C17_violated_silently"
   ],
   "note": "False of the code if some part has no samples for the worker: the key holds the index among the non-empty parts."
  },
  {
   "property": "C18",
   "status": "proved",
   "theorems": [
    "Verif.Stream.C18_shares",
    "Verif.Stream.C18_shares_balanced",
    "Verif.Stream.C18_limit_pass",
    "Verif.Stream.C18_limit_items"
   ],
   "note": ""
  },
  {
   "property": "C19",
   "status": "partial",
   "theorems": [
    "Verif.Stream.C19_limit_resumes_partial",
    "Verif.Stream.C19_violated"
   ],
   "note": "false for sources whose next raises right behind the limit; proved otherwise"
  },
  {
   "property": "C20",
   "status": "proved",
   "theorems": [
    "Verif.Stream.C20_epoch_length",
    "Verif.Stream.C20_epochs_concat",
    "Verif.Stream.C20_epoch_exists",
    "Verif.Stream.C20_shares"
   ],
   "note": ""
  },
  {
   "property": "C21",
   "status": "partial",
   "theorems": [
    "Verif.Stream.C21_epochize_resumes_partial",
    "Verif.Stream.C21_violated"
   ],
   "note": "the end of an epoch is not reported again if the state was saved after its last sample"
  },
  {
   "property": "C22",
   "status": "partial",
   "theorems": [
    "Verif.Stream.C22_repeat_pass_partial",
    "Verif.Stream.C22_violated_second_iteration",
    "Verif.Stream.C22_forever_never_ends",
    "Verif.Stream.C22_forever_delivers",
    "Verif.Stream.C22_forever_only"
   ],
   "note": "holds for the first iteration; later iterations of a finite repeat are empty"
  },
  {
   "property": "C23",
   "status": "partial",
   "theorems": [
    "Verif.Stream.C23_repeat_forever_partial",
    "Verif.Stream.C23_violated",
    "Verif.Stream.C23_violated_last"
   ],
   "note": "false for a finite number of repeats"
  },
  {
   "property": "C24",
   "status": "partial",
   "theorems": [
    "Verif.Stream.C24_concat_pass",
    "Verif.Stream.C24_concat_first_part_partial",
    "Verif.Stream.C24_violated"
   ],
   "note": "Delivery proved; resuming is false of the code once the first part is finished (the active part is not saved)."
  },
  {
   "property": "C25",
   "status": "proved",
   "theorems": [
    "Verif.Stream.C25_batch_pass",
    "Verif.Stream.C25_batch_items"
   ],
   "note": ""
  },
  {
   "property": "C26",
   "status": "partial",
   "theorems": [
    "Verif.Stream.C26_batch_failures_partial",
    "Verif.Stream.C26_violated"
   ],
   "note": "Contents proved; restore keys after a failed batch are wrong in the code."
  },
  {
   "property": "C27",
   "status": "partial",
   "theorems": [
    "Verif.Stream.C27_batch_len_partial",
    "Verif.Stream.C27_violated"
   ],
   "note": "False of the code for drop_last=False with uneven shares."
  },
  {
   "property": "C28",
   "status": "proved",
   "theorems": [
    "Verif.Stream.C28_group_pass",
    "Verif.Stream.C28_group_exactly_once",
    "Verif.Stream.C28_group_items",
    "Verif.Stream.C28_group_order",
    "Verif.Stream.C28_group_order_items"
   ],
   "note": ""
  },
  {
   "property": "C29",
   "status": "partial",
   "theorems": [
    "Verif.Stream.C29_group_resumes_partial",
    "Verif.Stream.C29_violated"
   ],
   "note": "False of the code: a resumed worker loses the samples of its partially filled groups (inverted condition in restore_state)."
  },
  {
   "property": "C30",
   "status": "proved",
   "theorems": [
    "Verif.Stream.C30_packing_pass",
    "Verif.Stream.C30_exactly_once",
    "Verif.Stream.C30_buffer_bound",
    "Verif.Stream.C30_round_limit"
   ],
   "note": "Hypothesis: of any 10 full buffers in a row one gives a pack (C30_round_limit: otherwise the iteration fails)."
  },
  {
   "property": "C31",
   "status": "partial",
   "theorems": [
    "Verif.Stream.C31_packing_resumes_endless_partial",
    "Verif.Stream.C31_packing_resumes_partial",
    "Verif.Stream.C31_violated",
    "Verif.Stream.C31_violated_generator",
    "Verif.Stream.C31_violated_missing_state"
   ],
   "note": "Exact for plain final packers and endless sources; for finite sources an end-of-pass report is lost; false for generator packers."
  },
  {
   "property": "C32",
   "status": "proved",
   "theorems": [
    "Verif.Wds.C32_passes",
    "Verif.Wds.C32_epochs",
    "Verif.Wds.C32_interrupted",
    "Verif.Wds.C32_length",
    "Verif.Wds.C32_live",
    "Verif.Wds.C32_never_ends",
    "Verif.Wds.C32_only_own_samples",
    "Verif.Wds.C32_replacement_never_ends",
    "Verif.Wds.C32_replacement_live",
    "Verif.Wds.C32_needs_counts"
   ],
   "note": "For every mode, number of iterators, random generator; slices with positive count (guaranteed by the sharder's last filter). Also liveness. With replacement the epoch notion does not exist; only membership, endlessness and progress are proved for it."
  },
  {
   "property": "C33",
   "status": "proved",
   "theorems": [
    "Verif.Wds.C33_resumes",
    "Verif.Wds.C33_violated_of_equal_slices",
    "Verif.Wds.C33_reader_resumes"
   ],
   "note": "Assumes distinct (name, offset) keys of slices of a worker; shown necessary."
  },
  {
   "property": "C34",
   "status": "partial",
   "theorems": [
    "Verif.Stream.C34_filter",
    "Verif.Stream.C34_map",
    "Verif.Stream.C34_map_generator",
    "Verif.Stream.C34_log",
    "Verif.Stream.C34_shuffle",
    "Verif.Stream.C34_limit",
    "Verif.Stream.C34_epochize",
    "Verif.Stream.C34_repeat",
    "Verif.Stream.C34_concat",
    "Verif.Stream.C34_batch",
    "Verif.Stream.C34_group",
    "Verif.Stream.C34_packing",
    "Verif.Loader.C34_loader_worker",
    "Verif.Loader.C34_plain",
    "Verif.Wds.C34_reader",
    "Verif.Wds.C34_loader_raw"
   ],
   "note": "Per layer; through the whole stack in C66. Partial because of C17, C26, C42, C56."
  },
  {
   "property": "C35",
   "status": "proved",
   "theorems": [
    "Verif.Loader.C35_round_robin",
    "Verif.Loader.C35_complete",
    "Verif.Loader.C35_schedule_independent",
    "Verif.Loader.C35_progress",
    "Verif.Loader.C35_next_returns",
    "Verif.Loader.C35_worker_stream",
    "Verif.Loader.C35_prefetch",
    "Verif.Loader.C35_terminates",
    "Verif.Loader.C35_loop",
    "Verif.Loader.C35_no_deadlock"
   ],
   "note": "PyTorch's multi process iterator is modelled from its protocol (external code); all schedules of n workers and the consumer. Exceptions in workers and the pin memory thread are not modelled."
  },
  {
   "property": "C36",
   "status": "partial",
   "theorems": [
    "Verif.Loader.C36_worker_exact_partial",
    "Verif.Loader.C36_worker_pass_partial",
    "Verif.Loader.C36_loader_streams_partial",
    "Verif.Loader.C36_save_possible_partial",
    "Verif.Loader.C36_loader_exact_partial",
    "Verif.Loader.C36_two_workers_partial",
    "Verif.Loader.C36_violated_three_workers",
    "Verif.Loader.C36_violated_early_save",
    "Verif.Loader.C36_violated_second_save",
    "Verif.Loader.C36_violated_end"
   ],
   "note": "Exact for at most two workers (any n if 2*next_worker = 0 mod n) if every worker delivered a sample since the loader was created; the code violates the full claim: wrong worker order for >= 3 workers, first sample of a worker lost if saved before it delivered, ValueError when saving soon after restore, end of pass not reported."
  },
  {
   "property": "C37",
   "status": "partial",
   "theorems": [
    "Verif.Loader.C37_checkpoint_available_partial",
    "Verif.Loader.C37_violated_end"
   ],
   "note": "Holds at every point before the end of the worker's pass (always, for endless training streams); at the end of a pass the forced checkpoint can evict the only usable one."
  },
  {
   "property": "C38",
   "status": "proved",
   "theorems": [
    "Verif.Io.C38_round_trip",
    "Verif.Io.C38_reader_offsets",
    "Verif.Io.C38_atomic",
    "Verif.Io.C38_reader_after_crash",
    "Verif.Io.C38_outcome",
    "Verif.Io.C38_can_finish"
   ],
   "note": "Index writing as a program of file system steps with a crash after any step."
  },
  {
   "property": "C39",
   "status": "proved",
   "theorems": [
    "Verif.Wds.C39_slice",
    "Verif.Wds.C39_count",
    "Verif.Wds.C39_sequential",
    "Verif.Wds.C39_parts",
    "Verif.Wds.C39_parts_nodup"
   ],
   "note": ""
  },
  {
   "property": "C40",
   "status": "partial",
   "theorems": [
    "Verif.Io.C40_clamped",
    "Verif.Io.C40_sub_file_partial",
    "Verif.Io.C40_only_range",
    "Verif.Io.C40_violated_seek",
    "Verif.Io.C40_violated_read"
   ],
   "note": "Holds for readers that seek inside the range and read with n >= -1; the code clamps seeks and reads outside the range for n < -1 (violations proved)."
  },
  {
   "property": "C41",
   "status": "partial",
   "theorems": [
    "Verif.Io.C41_reads_partial",
    "Verif.Io.C41_violated_short",
    "Verif.Io.C41_violated_none",
    "Verif.Io.C41_violated_seek"
   ],
   "note": "Holds for seeks that succeed and reads completed in one piece; the code returns only the last piece, None after ten rounds and swallows failed seeks (violations proved)."
  },
  {
   "property": "C42",
   "status": "partial",
   "theorems": [
    "Verif.Wds.C42_delivered",
    "Verif.Wds.C42_restore_partial",
    "Verif.Wds.C42_violated"
   ],
   "note": "The property is false of the code: the restore key counts delivered samples, so it is shifted by excluded samples before (C42_violated). Proved: exactly the samples not excluded are delivered; samples with no excluded sample before them are restored."
  },
  {
   "property": "C43",
   "status": "partial",
   "theorems": [
    "Verif.Prep.C43_no_shard_twice_partial",
    "Verif.Prep.C43_disjoint_partial",
    "Verif.Prep.C43_at_most_one_lost_partial",
    "Verif.Prep.C43_one_part_partial",
    "Verif.Prep.C43_two_parts_partial",
    "Verif.Prep.C43_violated",
    "Verif.Prep.C43_violated_names",
    "Verif.Prep.C43_patterns_partial",
    "Verif.Prep.C43_patterns_split_partial"
   ],
   "note": "No shard is assigned twice and at most the last one is lost, for all ratios; none is lost for one part or two parts with an exact sum. The code does lose a shard for ratios such as 1:4:1 (violation proved). Also with patterns (split_parts_patterns): each part gets the matching shards, and it is a split if each shard matches one pattern."
  },
  {
   "property": "C44",
   "status": "proved",
   "theorems": [
    "Verif.Meta.C44_sum",
    "Verif.Meta.C44_weights"
   ],
   "note": "Exact (rational) arithmetic."
  },
  {
   "property": "C45",
   "status": "proved",
   "theorems": [
    "Verif.Meta.C45_options",
    "Verif.Meta.C45_total",
    "Verif.Meta.C45_subflavors"
   ],
   "note": ""
  },
  {
   "property": "C46",
   "status": "partial",
   "theorems": [
    "Verif.Task.C46_outer_untouched",
    "Verif.Task.C46_call_partial",
    "Verif.Task.C46_generator_partial",
    "Verif.Task.C46_seed_of_restored",
    "Verif.Task.C46_violated",
    "Verif.Task.C46_violated_generator",
    "Verif.Task.C46_violated_restore",
    "Verif.Task.C46_violated_rank"
   ],
   "note": "Isolation holds for all histories. Reproducibility holds while the worker seed of the process does not change; the code caches the first worker seed (violations proved)."
  },
  {
   "property": "C47",
   "status": "partial",
   "theorems": [
    "Verif.Task.C47_first_match",
    "Verif.Task.C47_only_match",
    "Verif.Task.C47_no_match_partial",
    "Verif.Task.C47_samples_pass",
    "Verif.Task.C47_violated"
   ],
   "note": "Without registered cookers the cooking stage is left out and crude samples pass without an error (violation proved)."
  },
  {
   "property": "C48",
   "status": "partial",
   "theorems": [
    "Verif.Path.C48_join",
    "Verif.Path.C48_from",
    "Verif.Path.C48_error_iff",
    "Verif.Path.C48_down",
    "Verif.Path.C48_absolute",
    "Verif.Path.C48_idem",
    "Verif.Path.C48_assoc",
    "Verif.Path.C48_parent",
    "Verif.Path.C48_remote_partial",
    "Verif.Path.C48_violated_remote",
    "Verif.Path.C48_violated_double"
   ],
   "note": "Proved for all paths with a single root slash; false of the code for '..' climbing above the remote name of an rclone path (no error, url and file system disagree) and for absolute paths starting with exactly two slashes (joining raises)."
  },
  {
   "property": "C49",
   "status": "partial",
   "theorems": [
    "Verif.Task.C49_padded_partial",
    "Verif.Task.C49_succeeds",
    "Verif.Task.C49_violated"
   ],
   "note": "For tensors whose values fit the type of the first one; mixed types change values (violation proved)."
  },
  {
   "property": "C50",
   "status": "partial",
   "theorems": [
    "Verif.Transform.C50_size",
    "Verif.Transform.C50_affine",
    "Verif.Transform.C50_perspective_partial",
    "Verif.Transform.C50_shown_partial",
    "Verif.Transform.C50_shown_only",
    "Verif.Transform.C50_corners",
    "Verif.Transform.C50_tensor",
    "Verif.Transform.C50_flip_chance",
    "Verif.Transform.C50_violated_reveal",
    "Verif.Transform.C50_violated_center",
    "Verif.Transform.C50_violated_padding",
    "Verif.Transform.C50_violated_tensor",
    "Verif.Transform.C50_violated_chance",
    "Verif.Transform.C50_tensor_perspective_partial"
   ],
   "note": "Point maps and sizes proved for all lists of transforms over any ordered field (exact arithmetic). False of the code: parts cut off earlier reappear; center crop padding by 3 mod 4 pixels is off by one; padding of RandomCrop is ignored; tensors with perspective sample at wrong positions; perspective with p=0 can happen."
  },
  {
   "property": "C51",
   "status": "proved",
   "theorems": [
    "Verif.Stream.C51_batch_resumes",
    "Verif.Stream.C51_batch_resumes_endless",
    "Verif.Stream.C51_batch_resumes_drop_last"
   ],
   "note": "With drop_last batching resumes exactly."
  },
  {
   "property": "C52",
   "status": "partial",
   "theorems": [
    "Verif.Stream.C52_iter_map_pass",
    "Verif.Stream.C52_iter_map_items",
    "Verif.Stream.C52_iter_map_resumes_partial",
    "Verif.Stream.C52_iter_map_restores_partial",
    "Verif.Stream.C52_violated",
    "Verif.Stream.C52_restores_violated",
    "Verif.Stream.C52_restores_violated_failure"
   ],
   "note": "Delivery is proved in full. Resuming and restoring hold only for at most one sample per source sample and without exceptions; counterexamples are proved for the rest."
  },
  {
   "property": "C53",
   "status": "partial",
   "theorems": [
    "Verif.Loader.C53_pass",
    "Verif.Loader.C53_resumes_partial",
    "Verif.Loader.C53_violated"
   ],
   "note": "Exact except for the running number in the restore key, which the code does not save."
  },
  {
   "property": "C54",
   "status": "partial",
   "theorems": [
    "Verif.Wds.C54_same_key",
    "Verif.Wds.C54_all",
    "Verif.Wds.C54_tars",
    "Verif.Wds.C54_violated",
    "Verif.Wds.C54_detects",
    "Verif.Wds.C54_tars_detects"
   ],
   "note": "Proved for raising handlers and for columns that agree; with a handler that does not raise the property is false (C54_violated)."
  },
  {
   "property": "C55",
   "status": "proved",
   "theorems": [
    "Verif.Wds.C55_split",
    "Verif.Wds.C55_same_sample",
    "Verif.Wds.C55_meta",
    "Verif.Wds.C55_groups",
    "Verif.Wds.C55_part"
   ],
   "note": ""
  },
  {
   "property": "C56",
   "status": "partial",
   "theorems": [
    "Verif.Wds.C56_violated",
    "Verif.Wds.C56_without_prefix_partial"
   ],
   "note": "The property is false of the code: the class name put in front of the key makes restore_sample fail always. Proved: without it the key restores the sample."
  },
  {
   "property": "C57",
   "status": "partial",
   "theorems": [
    "Verif.Meta.C57_multiplier_partial",
    "Verif.Meta.C57_violated_join",
    "Verif.Meta.C57_violated_infinite"
   ],
   "note": "Holds without joins and -1; joins ignore their multiplier and products with -1 are wrong in the code (violations proved)."
  },
  {
   "property": "C58",
   "status": "partial",
   "theorems": [
    "Verif.Meta.C58_ref_partial",
    "Verif.Meta.C58_violated"
   ],
   "note": "Holds for references; the split_config of a join part is ignored by the code (violation proved)."
  },
  {
   "property": "C59",
   "status": "proved",
   "theorems": [
    "Verif.Prep.C59_loads",
    "Verif.Prep.C59_empty",
    "Verif.Prep.C59_prepared",
    "Verif.Prep.C59_prepared_patterns"
   ],
   "note": ""
  },
  {
   "property": "C60",
   "status": "partial",
   "theorems": [
    "Verif.Task.C60_fields_partial",
    "Verif.Task.C60_leaves_partial",
    "Verif.Task.C60_violated"
   ],
   "note": "Fields the first sample does not have are dropped silently (violation proved)."
  },
  {
   "property": "C61",
   "status": "proved",
   "theorems": [
    "Verif.Path.C61_local",
    "Verif.Path.C61_url",
    "Verif.Path.C61_injective",
    "Verif.Path.C61_relative",
    "Verif.Path.C61_relative_iff",
    "Verif.Path.C61_protocols"
   ],
   "note": "For all path objects belonging to their file system (every path made from a string does: ofStr_ok)."
  },
  {
   "property": "C62",
   "status": "partial",
   "theorems": [
    "Verif.Path.C62_index_partial",
    "Verif.Path.C62_violated",
    "Verif.Path.C62_violated_hidden"
   ],
   "note": "Proved for shards named *.tar; false for x.tar next to x.tgz, which share an index file."
  },
  {
   "property": "C63",
   "status": "proved",
   "theorems": [
    "Verif.Transform.C63_common"
   ],
   "note": ""
  },
  {
   "property": "C64",
   "status": "partial",
   "theorems": [
    "Verif.Transform.C64_inside_partial",
    "Verif.Transform.C64_try_pixels",
    "Verif.Transform.C64_fallback_pixels_partial",
    "Verif.Transform.C64_violated",
    "Verif.Transform.C64_fallback_centre"
   ],
   "note": "Inside proved for all draws; the fallback box can be empty for extreme ratios."
  },
  {
   "property": "C65",
   "status": "partial",
   "theorems": [
    "Verif.Pipeline.C65_train_resumes_partial",
    "Verif.Pipeline.C65_violated_small_part"
   ],
   "note": "Proved for task encoders without generator functions and grouping, datasets with a sample for each worker. Violated if a blended dataset has fewer samples than workers and a shuffle buffer is used (the restore keys name the wrong part), and for generators, grouping (C14, C28)."
  },
  {
   "property": "C66",
   "status": "partial",
   "theorems": [
    "Verif.Pipeline.C66_train_restores_partial",
    "Verif.Pipeline.C66_val_restores_partial",
    "Verif.Pipeline.C66_violated_grouping"
   ],
   "note": "Without grouping (with a grouping criterion nothing can be restored: build_batch does not pass batcher_stateless to GroupBatchDataset), batch functions that do not fail (C26), for training datasets with a sample for each worker."
  },
  {
   "property": "C67",
   "status": "partial",
   "theorems": [
    "Verif.Pipeline.C67_val_exactly_once_partial",
    "Verif.Pipeline.C67_val_at_most_once_partial",
    "Verif.Pipeline.C67_violated_max_samples"
   ],
   "note": "With packing and grouping, without generator functions. Violated with max_samples_per_sequence (C04)."
  },
  {
   "property": "C68",
   "status": "partial",
   "theorems": [
    "Verif.Pipeline.C68_val_contents_partial",
    "Verif.Pipeline.C68_violated_encode_batch"
   ],
   "note": "Packing, grouping and generator functions included. User functions must not depend on the sample index or fail fatally; generator functions must not raise. Violated with grouping: encode_batch is not applied."
  },
  {
   "property": "C69",
   "status": "partial",
   "theorems": [
    "Verif.Pipeline.C69_train_contents_partial",
    "Verif.Pipeline.C69_uninterrupted_partial",
    "Verif.Pipeline.C69_shares",
    "Verif.Pipeline.C69_shares_disjoint"
   ],
   "note": "With interruptions: with packing, without groups and generator functions (C29_violated, C14). Without interruptions: everything. User functions do not depend on the sample index and do not fail fatally; each dataset has a sample for each worker (otherwise C65_violated_small_part)."
  },
  {
   "property": "C70",
   "status": "proved",
   "theorems": [
    "Verif.Config.C70_split",
    "Verif.Config.C70_first",
    "Verif.Config.C70_fails",
    "Verif.Config.C70_parts",
    "Verif.Config.C70_sample",
    "Verif.Config.C70_index",
    "Verif.Config.C70_malformed"
   ],
   "note": "Field maps; the integer parser of list indices is arbitrary."
  },
  {
   "property": "C71",
   "status": "partial",
   "theorems": [
    "Verif.Config.C71_violated",
    "Verif.Config.C71_violated_no_sample",
    "Verif.Config.C71_accept_partial"
   ],
   "note": "Violated: the check for required fields asks for fields having both a default and a default factory, of which there are none. Proved: names are checked; with all required fields mapped no constructor call fails."
  },
  {
   "property": "C72",
   "status": "proved",
   "theorems": [
    "Verif.Config.C72_accepts",
    "Verif.Config.C72_accepts_iff",
    "Verif.Config.C72_union",
    "Verif.Config.C72_literal"
   ],
   "note": "iff for string keys, constructors that do not raise, and the checked kinds of annotations; acceptance implies fitting in general."
  },
  {
   "property": "C73",
   "status": "partial",
   "theorems": [
    "Verif.Config.C73_typed_partial",
    "Verif.Config.C73_violated_tuple",
    "Verif.Config.C73_violated_keys",
    "Verif.Config.C73_violated_class",
    "Verif.Config.C73_violated"
   ],
   "note": "Violated: tuples of fixed size come back as lists, keys of Dict[str, ..] are not checked, any object is accepted for a class. Proved for all other annotations."
  },
  {
   "property": "C74",
   "status": "partial",
   "theorems": [
    "Verif.Config.C74_round_trip_partial",
    "Verif.Config.C74_metadata",
    "Verif.Config.C74_violated"
   ],
   "note": "Violated for tuples of fixed size and paths. Proved for values determined by their JSON form; the metadata files of a prepared dataset completely."
  },
  {
   "property": "C75",
   "status": "partial",
   "theorems": [
    "Verif.Config.C75_default",
    "Verif.Config.C75_named",
    "Verif.Config.C75_kwargs",
    "Verif.Config.C75_violated_default",
    "Verif.Config.C75_function",
    "Verif.Config.C75_nested",
    "Verif.Config.C75_type",
    "Verif.Config.C75_callable"
   ],
   "note": "Proved except that default values are converted, too, so a default that is an instance of a dataclass or named tuple is refused (violated_default)."
  },
  {
   "property": "C76",
   "status": "partial",
   "theorems": [
    "Verif.Config.C76_reversed",
    "Verif.Config.C76_violated",
    "Verif.Config.C76_one_partial"
   ],
   "note": "Violated: unused_args.pop() takes the last element, the order is reversed (proved for every length)."
  },
  {
   "property": "C77",
   "status": "partial",
   "theorems": [
    "Verif.Pipeline.C77_train_flows",
    "Verif.Pipeline.C77_train_never_stalls_partial",
    "Verif.Pipeline.C77_violated_rejects",
    "Verif.Pipeline.C77_violated_groups"
   ],
   "note": "Proved for every history of iterating, saving and going on in a new process, for task encoders whose functions accept all samples; generator functions (that do not end by an exception, C14_violated_skip), packing and grouping with finitely many groups included. If a function rejects (or fails on) all samples, or with infinitely many groups, next blocks for ever: C77_violated_rejects, C77_violated_groups."
  },
  {
   "property": "C78",
   "status": "partial",
   "theorems": [
    "Verif.Pipeline.C78_training_loader_partial",
    "Verif.Pipeline.C78_contents_partial",
    "Verif.Pipeline.C36_workers_answer"
   ],
   "note": "Combines C35, C36, C65, C69, C77. Limits: at each save every worker must have delivered a sample since the last start (otherwise false, see C36), exact global order with one or two workers only (otherwise false, C09), no virtual epochs, generator functions, grouping."
  },
  {
   "property": "C79",
   "status": "partial",
   "theorems": [
    "Verif.Pipeline.C79_val_loader_exactly_once_partial",
    "Verif.Pipeline.C79_val_loader_at_most_once_partial",
    "Verif.Pipeline.C79_loop_order",
    "Verif.Loader.C35_loop",
    "Verif.Loader.C35_terminates",
    "Verif.Pipeline.C79_keys_unique",
    "Verif.Pipeline.C79_val_loader_contents_partial",
    "Verif.Pipeline.C79_left",
    "Verif.Pipeline.C79_left_ends",
    "Verif.Pipeline.C79_left_exactly_once_partial",
    "Verif.Pipeline.C79_left_at_most_once_partial"
   ],
   "note": "Sharding, validation datasets, worker wrappers, worker processes and loops composed. C79_val_loader_contents_partial includes generator functions and shows that every loop delivers the same contents in the same order (for functions of the sample only). Loops left early: for the savable loader with worker processes the loops up to an end, put together, are a complete round (C79_left...); get_loader with worker processes loses samples (C80_violated_workers); without worker processes see C80. Missing: with max_samples_per_sequence 'exactly once' is false (C67_violated_max_samples)."
  },
  {
   "property": "C80",
   "status": "partial",
   "theorems": [
    "Verif.Pipeline.C80_train_epochs",
    "Verif.Pipeline.C80_train_partial",
    "Verif.Pipeline.C80_val_partial",
    "Verif.Loader.C80_workers_loop",
    "Verif.Pipeline.C80_violated_generator",
    "Verif.Pipeline.C80_violated_packer",
    "Verif.Pipeline.C80_violated_concat",
    "Verif.Pipeline.C80_violated_limit",
    "Verif.Loader.C80_violated_workers"
   ],
   "note": "Loaders without worker processes: proved with virtual epochs for every task encoder; without, for task encoders without generator functions; for validation with one dataset. Counterexamples for generator functions, several validation datasets, limits larger than the pass; get_loader with worker processes loses 2n samples per loop left."
  },
  {
   "property": "C81",
   "status": "partial",
   "theorems": [
    "Verif.Ranks.C81_gathered",
    "Verif.Ranks.C81_gathered_at_partial",
    "Verif.Ranks.C81_violated_group",
    "Verif.Ranks.C81_scattered",
    "Verif.Ranks.C81_violated_src",
    "Verif.Ranks.C81_violated_src_list",
    "Verif.Ranks.C81_restart_partial",
    "Verif.Ranks.C81_single_partial",
    "Verif.Ranks.C81_list_refused",
    "Verif.Ranks.C81_job_partial",
    "Verif.Ranks.C81_violated_saved_again",
    "Verif.Ranks.C81_training_partial",
    "Verif.Ranks.C81_src_single"
   ],
   "note": "Without dst_rank/src_rank every rank gets and is restored from its own state, for all groups and histories. Violated: src_rank never works with two or more ranks (the holder waits for ever, the others silently start anew); dst_rank is a data parallel rank for the list but a global rank for gather_object; a loader with workers that is saved between restoring and its first sample saves None, the initial state."
  },
  {
   "property": "C82",
   "status": "partial",
   "theorems": [
    "Verif.Mix.C82_concat_succeeds",
    "Verif.Mix.C82_concat_partial",
    "Verif.Mix.C82_as_if_batched",
    "Verif.Mix.C82_violated_dtype",
    "Verif.Mix.C82_fields_partial",
    "Verif.Mix.C82_violated_lists",
    "Verif.Mix.C82_mixed",
    "Verif.Mix.C82_never_ends",
    "Verif.Mix.C82_resumes",
    "Verif.Mix.C82_violated_restore",
    "Verif.Mix.C82_violated_types",
    "Verif.Mix.C82_homogeneous"
   ],
   "note": "Drawing, batching, resuming and the concatenation of tensors of one type are proved. False of the code: tensors of different types, fields that are lists (not concatenated), batches of different types (dropped), restoring. Batch functions that are generators are not modelled."
  },
  {
   "property": "C83",
   "status": "proved",
   "theorems": [
    "Verif.Stream.C83_map",
    "Verif.Stream.C83_map_generator",
    "Verif.Stream.C83_iter_map",
    "Verif.Pipeline.C83_train",
    "Verif.Pipeline.C83_val"
   ],
   "note": "For keys with at least one sample at each level of packing and batching, as all batches have."
  },
  {
   "property": "C84",
   "status": "partial",
   "theorems": [
    "Verif.Stream.C84_pass",
    "Verif.Stream.C84_pass_keys",
    "Verif.Stream.C84_items",
    "Verif.Stream.C84_restores_samples",
    "Verif.Stream.C84_resumes_partial",
    "Verif.Stream.C84_violated_index",
    "Verif.Stream.C84_violated_skip",
    "Verif.Stream.C84_violated_next_pass",
    "Verif.Stream.C84_violated_kept"
   ],
   "note": "Delivery and restoring by key proved. Resuming is proved for functions that do not look at the sample index and are not ended by exceptions, from states written down at once. False of the code: the index is off by one on resume, exceptions of a resumed generator are not handled, a generator ended by an exception is started again in the next pass, and a state kept in memory (checkpoints of the worker processes) changes because its list of keys is the one the running iteration uses."
  },
  {
   "property": "C85",
   "status": "partial",
   "theorems": [
    "Verif.Lint.C85_serial_partial",
    "Verif.Lint.C85_workers",
    "Verif.Lint.C85_healthy",
    "Verif.Lint.C85_index",
    "Verif.Lint.C85_violated",
    "Verif.Lint.C85_violated_empty",
    "Verif.Lint.C85_violated_file"
   ],
   "note": "Holds without worker processes and without empty split parts. With worker processes (the default) the handler runs in them and the main process never learns of failures: exact characterisation C85_workers. Empty split parts make lint crash. The stages after loading are not modelled."
  },
  {
   "property": "C86",
   "status": "partial",
   "theorems": [
    "Verif.Lint.C86_calls_partial",
    "Verif.Lint.C86_fatal",
    "Verif.Lint.C86_key",
    "Verif.Lint.C86_violated",
    "Verif.Lint.C86_violated_always"
   ],
   "note": "Calls, order and delivered samples hold; the key is missing for every sample whose loading fails, since the raw sample is a tuple and only lists are looked into."
  },
  {
   "property": "C87",
   "status": "partial",
   "theorems": [
    "Verif.Loader.Cmd.C87_answers_partial",
    "Verif.Loader.Cmd.C87_exclusive",
    "Verif.Loader.Cmd.C87_no_deadlock",
    "Verif.Loader.Cmd.C87_returns",
    "Verif.Loader.Cmd.C87_violated",
    "Verif.Loader.Cmd.C87_early_checkpoint"
   ],
   "note": "Every call returns in every order of the steps (measure, no fairness needed), with one answer of each worker to this call; commands and fetching exclude each other. Missing (false, C87_violated): a worker that has just been started may answer before it has restored its state. One iteration; worker processes do not die, fetching a sample ends."
  },
  {
   "property": "C88",
   "status": "partial",
   "theorems": [
    "Verif.Stream.C88_filter",
    "Verif.Stream.C88_map",
    "Verif.Stream.C88_log",
    "Verif.Stream.C88_gc",
    "Verif.Stream.C88_map_generator",
    "Verif.Stream.C88_iter_map",
    "Verif.Stream.C88_batch",
    "Verif.Stream.C88_batch_generator",
    "Verif.Stream.C88_shuffle",
    "Verif.Stream.C88_group",
    "Verif.Stream.C88_pack",
    "Verif.Stream.C88_limit",
    "Verif.Stream.C88_epochize",
    "Verif.Stream.C88_repeat",
    "Verif.Stream.C88_blend",
    "Verif.Stream.C88_concat",
    "Verif.Wds.C88_reader",
    "Verif.Stream.C88_violated_limit",
    "Verif.Stream.C88_violated_repeat"
   ],
   "note": "The direction 'False only if there is nothing' is proved for every wrapper. The converse (C88_statement) does not hold of the code: C88_violated_limit, C88_violated_repeat."
  },
  {
   "property": "C89",
   "status": "partial",
   "theorems": [
    "Verif.Stream.C89_filter",
    "Verif.Stream.C89_map",
    "Verif.Stream.C89_log",
    "Verif.Stream.C89_gc",
    "Verif.Stream.C89_map_generator",
    "Verif.Stream.C89_iter_map",
    "Verif.Stream.C89_batch",
    "Verif.Stream.C89_batch_generator",
    "Verif.Stream.C89_pack",
    "Verif.Stream.C89_limit",
    "Verif.Stream.C89_repeat",
    "Verif.Stream.C89_concat",
    "Verif.Wds.C89_reader",
    "Verif.Stream.C89_limit_periodic",
    "Verif.Pipeline.C89_validation",
    "Verif.Pipeline.C89_validation_periodic",
    "Verif.Stream.C89_shuffle_partial",
    "Verif.Stream.C89_blend_partial",
    "Verif.Stream.C89_group_partial",
    "Verif.Wds.C89_reader_shuffled_partial",
    "Verif.Stream.C89_violated_shuffle",
    "Verif.Stream.C89_violated_blend",
    "Verif.Stream.C89_violated_group",
    "Verif.Stream.C89_violated_epochize"
   ],
   "note": "Proved for all wrappers without random generators except grouping, and for the validation pipeline without groups. Shuffling, blending, the shuffled reader and grouping do not satisfy it (C89_violated_...; the _partial theorems say what holds). False for EpochizeDataset in the middle of an inner pass (C89_violated_epochize)."
  },
  {
   "property": "C90",
   "status": "partial",
   "theorems": [
    "Verif.Sharder.C90_power_of_two_partial",
    "Verif.Sharder.C90_one_worker_partial",
    "Verif.Sharder.C90_violated"
   ],
   "note": "Proved for a power of two of ranks with any number of workers, and for any number of ranks with one worker. False of the code otherwise: three ranks with two workers and three samples (C90_violated)."
  },
  {
   "property": "C91",
   "status": "proved",
   "theorems": [
    "Verif.Sample.C91_extend",
    "Verif.Sample.C91_derive_from",
    "Verif.Sample.C91_from_joined",
    "Verif.Sample.C91_no_primary",
    "Verif.Sample.C91_joined_fields",
    "Verif.Sample.C91_encode_sample",
    "Verif.Sample.C91_encode_same",
    "Verif.Sample.C91_encode_batch"
   ],
   "note": "Classes with generated constructors (no __post_init__)."
  },
  {
   "property": "C92",
   "status": "partial",
   "theorems": [
    "Verif.Worker.C92_kept_partial",
    "Verif.Worker.C92_different_files",
    "Verif.Worker.C92_violated"
   ],
   "note": "Proved as long as no sample is restored while logging. False of the code otherwise: restoring a sample of another worker than the first in the main process switches its log file, and returning to it empties it (C92_violated)."
  },
  {
   "property": "C93",
   "status": "partial",
   "theorems": [
    "Verif.Stream.C93_readers_partial",
    "Verif.Stream.C93_loader_keeps",
    "Verif.Stream.C93_filter_keeps",
    "Verif.Stream.C93_log_keeps",
    "Verif.Stream.C93_gc_keeps",
    "Verif.Stream.C93_blend_keeps",
    "Verif.Stream.C93_concat_keeps",
    "Verif.Stream.C93_repeat_keeps",
    "Verif.Stream.Held.Keeps.again",
    "Verif.Stream.C93_map_contents_partial",
    "Verif.Stream.C93_violated_shuffle",
    "Verif.Stream.C93_violated_epochize",
    "Verif.Stream.C93_violated_limit",
    "Verif.Stream.C93_violated_repeat",
    "Verif.Stream.C93_violated_map",
    "Verif.Stream.C93_violated_batch",
    "Verif.Stream.C93_violated_stack"
   ],
   "note": "False in general: the state object is changed while the dataset restored from it runs (counterexamples for shuffle buffers, virtual epochs, limits, repetitions, map functions, batches). Proved for readers, filters, logging, garbage collection, blending, concatenation and endless repetition in any combination; for map functions the contents."
  },
  {
   "property": "C94",
   "status": "partial",
   "theorems": [
    "Verif.Stream.C94_reader",
    "Verif.Stream.C94_wrapped_partial",
    "Verif.Stream.C94_epochize_unused_partial",
    "Verif.Stream.C94_violated",
    "Verif.Stream.C94_violated_save",
    "Verif.Stream.C94_kept_partial",
    "Verif.Stream.C94_forgets",
    "Verif.Stream.C94_epochize_goes_on",
    "Verif.Stream.C94_epochize_new_partial",
    "Verif.Stream.C94_violated_twice"
   ],
   "note": "False with virtual epochs (counterexamples, also for the states saved afterwards). Proved for the reader and all stacks of wrappers without virtual epochs, and with virtual epochs before the first sample."
  },
  {
   "property": "C95",
   "status": "proved",
   "theorems": [
    "Verif.Meta.C95_unique",
    "Verif.Meta.C95_moved",
    "Verif.Meta.C95_loads",
    "Verif.Meta.C95_circle"
   ],
   "note": ""
  },
  {
   "property": "C96",
   "status": "partial",
   "theorems": [
    "Verif.Meta.C96_dataset_partial",
    "Verif.Meta.C96_subflavors",
    "Verif.Meta.C96_violated"
   ],
   "note": "Proved for the path of a dataset, and for split_part and subflavors of metadatasets. False for subflavor, dataset_config and split_config with a metadataset file: always an error (C96_violated)."
  },
  {
   "property": "C97",
   "status": "proved",
   "theorems": [
    "Verif.Wds.C97_next",
    "Verif.Wds.C97_slice",
    "Verif.Wds.C97_all",
    "Verif.Wds.C97_restore"
   ],
   "note": ""
  },
  {
   "property": "C98",
   "status": "partial",
   "theorems": [
    "Verif.Code.C98_string",
    "Verif.Code.C98_function",
    "Verif.Code.C98_once",
    "Verif.Code.C98_same",
    "Verif.Code.C98_relative",
    "Verif.Code.C98_absolute",
    "Verif.Code.C98_dataset",
    "Verif.Code.C98_violated_cwd",
    "Verif.Code.C98_violated_protocol"
   ],
   "note": "Proved as used for datasets, for all histories. False: a relative module without relative_path is always an error (documented: current directory); a remote file without function name is split at the colon of rclone://."
  },
  {
   "property": "C99",
   "status": "partial",
   "theorems": [
    "Verif.Debug.C99_heatmap_partial",
    "Verif.Debug.C99_analyze_partial",
    "Verif.Debug.C99_numbers",
    "Verif.Debug.C99_written",
    "Verif.Debug.C99_violated_odd",
    "Verif.Debug.C99_violated_one",
    "Verif.Debug.C99_violated_skip",
    "Verif.Debug.C99_violated_loading"
   ],
   "note": "Proved for the batches of logs, for even sizes and without --skip. False for odd sizes (exception, or loss of all data for size 1), for --skip (always an AssertionError with the logs of a loader), and for the order of loading (always a TypeError)."
  }
 ]
}