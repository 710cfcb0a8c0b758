'Verif.Sharder.C01_workers_partition_dataset' depends on axioms: [propext, Classical.choice, Quot.sound]
'Verif.Sharder.C01_no_shards' depends on axioms: [propext, Classical.choice, Quot.sound]
'Verif.Sharder.C01_bytes' depends on axioms: [propext, Classical.choice, Quot.sound]
'Verif.Sharder.C02_workers_balanced' depends on axioms: [propext, Classical.choice, Quot.sound]
'Verif.Sharder.C03_only_global_index_matters' depends on axioms: [propext, Classical.choice, Quot.sound]
'Verif.Sharder.C04_violated' depends on axioms: [propext, Classical.choice, Quot.sound]
'Verif.Sharder.C04_violated_run' depends on axioms: [propext, Classical.choice, Quot.sound]
'Verif.Sharder.C04_split_covers_partial' depends on axioms: [propext, Classical.choice, Quot.sound]
'Verif.Sharder.C04_no_duplicates_partial' depends on axioms: [propext, Classical.choice, Quot.sound]
'Verif.Sharder.C05_slices_bounded' depends on axioms: [propext, Classical.choice, Quot.sound]
'Verif.Sharder.C06_blend_balanced' depends on axioms: [propext, Classical.choice, Quot.sound]
'Verif.Worker.C07_indices_unique' depends on axioms: [propext, Quot.sound]
'Verif.Worker.C07_indices_increase' depends on axioms: [propext, Quot.sound]
'Verif.Worker.C07_worker_ids' depends on axioms: [propext, Quot.sound]
'Verif.Worker.C07_global_ids' depends on axioms: [propext, Quot.sound]
'Verif.Worker.C07_global_worker_id' depends on axioms: [propext, Classical.choice, Quot.sound]
'Verif.Worker.C07_override' depends on axioms: [propext, Quot.sound]
'Verif.Worker.C07_counters_increase' depends on axioms: [propext, Quot.sound]
'Verif.Worker.C07_outside' depends on axioms: [propext, Quot.sound]
'Verif.Worker.C08_scopes_bracketed' depends on axioms: [propext, Quot.sound]
'Verif.Worker.C08_next_call' depends on axioms: [propext, Quot.sound]
'Verif.Worker.C09_cyclic_partial' depends on axioms: [propext, Quot.sound]
'Verif.Worker.C09_first_worker' depends on axioms: [propext, Quot.sound]
'Verif.Worker.C09_violated' depends on axioms: [propext]
'Verif.Stream.C10_shuffle_pass' depends on axioms: [propext, Quot.sound]
'Verif.Stream.C10_shuffle_items' depends on axioms: [propext, Quot.sound]
'Verif.Debug.C100_batch_partial' depends on axioms: [propext, Classical.choice, Quot.sound]
'Verif.Debug.C100_violated_sample' depends on axioms: [propext, Classical.choice, Quot.sound]
'Verif.Debug.C100_violated_dict' depends on axioms: [propext, Classical.choice, Quot.sound]
'Verif.Debug.C100_violated_list' depends on axioms: [propext, Classical.choice, Quot.sound]
'Verif.Prep.C101_size_partial' depends on axioms: [propext, Classical.choice, Quot.sound]
'Verif.Prep.C101_percent' depends on axioms: [propext, Classical.choice, Quot.sound]
'Verif.Prep.C101_printed' depends on axioms: [propext, Classical.choice, Quot.sound]
'Verif.Prep.C101_loads_partial' depends on axioms: [propext, Classical.choice, Quot.sound]
'Verif.Prep.C101_prepared' depends on axioms: [propext, Classical.choice, Quot.sound]
'Verif.Prep.C101_violated_size' depends on axioms: [propext, Classical.choice, Quot.sound]
'Verif.Prep.C101_violated_exclude' depends on axioms: [propext, Classical.choice, Quot.sound]
'Verif.Prep.C101_violated_braces' depends on axioms: [propext, Classical.choice, Quot.sound]
'Verif.Config.C102_accepted_partial' depends on axioms: [propext, Classical.choice, Quot.sound]
'Verif.Config.C102_parts_partial' depends on axioms: [propext, Classical.choice, Quot.sound]
'Verif.Config.C102_sample_partial' depends on axioms: [propext, Classical.choice, Quot.sound]
'Verif.Config.C102_template' depends on axioms: [propext, Classical.choice, Quot.sound]
'Verif.Config.C102_violated_crude' depends on axioms: [propext, Classical.choice, Quot.sound]
'Verif.Config.C102_violated' depends on axioms: [propext, Classical.choice, Quot.sound]
'Verif.Config.C102_violated_brackets' depends on axioms: [propext, Classical.choice, Quot.sound]
'Verif.Wds.C103_shown' depends on axioms: [propext, Quot.sound]
'Verif.Wds.C103_shown_count' depends on axioms: [propext, Quot.sound]
'Verif.Wds.C103_parts' depends on axioms: [propext, Classical.choice, Quot.sound]
'Verif.Wds.C103_listed_partial' depends on axioms: [propext, Classical.choice, Quot.sound]
'Verif.Wds.C103_violated' depends on axioms: [propext, Classical.choice, Quot.sound]
'Verif.Pipeline.C104_virtual_epochs' depends on axioms: [propext, Classical.choice, Quot.sound]
'Verif.Pipeline.C104_epochs_join' depends on axioms: [propext]
'Verif.Pipeline.C104_accepting' depends on axioms: [propext, Classical.choice, Quot.sound]
'Verif.Pipeline.C105_delivered' depends on axioms: [propext, Classical.choice, Quot.sound]
'Verif.Pipeline.C105_val_len_partial' depends on axioms: [propext, Classical.choice, Quot.sound]
'Verif.Pipeline.C105_train_len' depends on axioms: [propext, Classical.choice, Quot.sound]
'Verif.Pipeline.C105_violated_last' depends on axioms: [propext, Classical.choice, Quot.sound]
'Verif.Pipeline.C105_violated_datasets' depends on axioms: [propext, Classical.choice, Quot.sound]
'Verif.Pipeline.C105_violated_limit' depends on axioms: [propext, Classical.choice, Quot.sound]
'Verif.Path.C106_collected_partial' depends on axioms: [propext, Classical.choice, Quot.sound]
'Verif.Path.C106_opened_partial' depends on axioms: [propext, Classical.choice, Quot.sound]
'Verif.Path.C106_index_only' depends on axioms: [propext, Classical.choice, Quot.sound]
'Verif.Path.C106_violated_magic' depends on axioms: [propext, Classical.choice, Quot.sound]
'Verif.Path.C106_violated_braces' depends on axioms: [propext, Classical.choice, Quot.sound]
'Verif.Path.C106_violated_tgz' depends on axioms: [propext, Classical.choice, Quot.sound]
'Verif.Loader.C107_worker_resumes' depends on axioms: [propext]
'Verif.Loader.C107_stream' depends on axioms: [propext]
'Verif.Loader.C107_in_order' depends on axioms: [propext, Quot.sound]
'Verif.Loader.C107_loader_partial' depends on axioms: [propext, Classical.choice, Quot.sound]
'Verif.Loader.C107_loader_streams_partial' depends on axioms: [propext, Classical.choice, Quot.sound]
'Verif.Loader.C107_main_partial' depends on axioms: [propext]
'Verif.Loader.C107_violated_main' depends on axioms: [propext]
'Verif.Wds.C108_slice_resumes' depends on axioms: [propext, Classical.choice, Quot.sound]
'Verif.Pipeline.C108_refuses' depends on axioms: [propext, Classical.choice, Quot.sound]
'Verif.Pipeline.C108_val_partial' depends on axioms: [propext, Classical.choice, Quot.sound]
'Verif.Pipeline.C108_train_resumes_partial' depends on axioms: [propext, Classical.choice, Quot.sound]
'Verif.Pipeline.C108_violated_shuffle' depends on axioms: [propext, Classical.choice, Quot.sound]
'Verif.Pipeline.C108_violated_training' depends on axioms: [propext, Classical.choice, Quot.sound]
'Verif.Pipeline.C109_same_dataset' depends on axioms: [propext, Classical.choice, Quot.sound]
'Verif.Pipeline.C109_rank_partial' depends on axioms: [propext, Classical.choice, Quot.sound]
'Verif.Pipeline.C109_global_batches_partial' depends on axioms: [propext, Classical.choice, Quot.sound]
'Verif.Pipeline.C109_same_global_batches_partial' depends on axioms: [propext, Classical.choice, Quot.sound]
'Verif.Pipeline.C109_global_samples_partial' depends on axioms: [propext, Classical.choice, Quot.sound]
'Verif.Pipeline.C109_accepting' depends on axioms: [propext, Classical.choice, Quot.sound]
'Verif.Pipeline.C109_violated_restore_seeds' depends on axioms: [propext, Classical.choice, Quot.sound]
'Verif.Pipeline.C109_rank' depends on axioms: [propext, Classical.choice, Quot.sound]
'Verif.Pipeline.C109_violated_epochs' depends on axioms: [propext, Classical.choice, Quot.sound]
'Verif.Stream.C11_violated' depends on axioms: [propext, Quot.sound]
'Verif.Stream.C11_shuffle_before_drain_partial' depends on axioms: [propext, Quot.sound]
'Verif.Stream.C11_shuffle_resumes_partial' depends on axioms: [propext, Quot.sound]
'Verif.Config.C110_only_named_partial' depends on axioms: [propext, Classical.choice, Quot.sound]
'Verif.Config.C110_named_partial' depends on axioms: [propext, Classical.choice, Quot.sound]
'Verif.Config.C110_texts' depends on axioms: [propext, Classical.choice, Quot.sound]
'Verif.Config.C110_typed_partial' depends on axioms: [propext, Classical.choice, Quot.sound]
'Verif.Config.C110_accepted' depends on axioms: [propext, Classical.choice, Quot.sound]
'Verif.Config.C110_empty' depends on axioms: [propext, Classical.choice, Quot.sound]
'Verif.Config.C110_violated_any' depends on axioms: [propext, Classical.choice, Quot.sound]
'Verif.Config.C110_violated_none' depends on axioms: [propext, Classical.choice, Quot.sound]
'Verif.Config.C110_violated_optional_list' depends on axioms: [propext, Classical.choice, Quot.sound]
'Verif.Config.C110_violated_append' depends on axioms: [propext, Classical.choice, Quot.sound]
'Verif.Config.C110_violated_empty_list' depends on axioms: [propext, Classical.choice, Quot.sound]
'Verif.Config.C110_violated_dict' depends on axioms: [propext, Classical.choice, Quot.sound]
'Verif.Config.C110_violated_tuple' depends on axioms: [propext, Classical.choice, Quot.sound]
'Verif.Config.C110_violated_mixed' depends on axioms: [propext, Classical.choice, Quot.sound]
'Verif.Config.C110_violated_dash' depends on axioms: [propext, Classical.choice, Quot.sound]
'Verif.Config.C110_violated_derived' depends on axioms: [propext, Classical.choice, Quot.sound]
'Verif.Config.C110_index' depends on axioms: [propext, Classical.choice, Quot.sound]
'Verif.Config.C110_union_texts' depends on axioms: [propext, Classical.choice, Quot.sound]
'Verif.Config.C110_union_rest' depends on axioms: [propext, Classical.choice, Quot.sound]
'Verif.Config.C110_any_texts' depends on axioms: [propext, Classical.choice, Quot.sound]
'Verif.Config.C110_union_value' depends on axioms: [propext, Classical.choice, Quot.sound]
'Verif.Config.C110_wrong_index' depends on axioms: [propext, Classical.choice, Quot.sound]
'Verif.Config.C110_dict_new' depends on axioms: [propext, Classical.choice, Quot.sound]
'Verif.Config.C110_dict_pair' depends on axioms: [propext, Classical.choice, Quot.sound]
'Verif.Path.C111_location' depends on axioms: [propext, Classical.choice, Quot.sound]
'Verif.Path.C111_credentials_partial' depends on axioms: [propext, Classical.choice, Quot.sound]
'Verif.Path.C111_endpoint_partial' depends on axioms: [propext, Classical.choice, Quot.sound]
'Verif.Path.C111_escaped' depends on axioms: [propext, Quot.sound]
'Verif.Path.C111_every_access' depends on axioms: [propext, Classical.choice, Quot.sound]
'Verif.Path.C111_violated_percent' depends on axioms: [propext, Classical.choice, Quot.sound]
'Verif.Path.C111_violated_http' depends on axioms: [propext, Classical.choice, Quot.sound]
'Verif.Path.C111_violated_reuse' depends on axioms: [propext, Classical.choice, Quot.sound]
'Verif.Path.C111_violated_above' depends on axioms: [propext, Classical.choice, Quot.sound]
'Verif.Path.C111_access_happens' depends on axioms: [propext, Quot.sound]
'Verif.Path.C111_references' depends on axioms: [propext, Quot.sound]
'Verif.Worker.Seed.C112_one_place' depends on axioms: [propext, Quot.sound]
'Verif.Worker.Seed.C112_refused' depends on axioms: [propext, Classical.choice, Quot.sound]
'Verif.Worker.Seed.C112_loader' depends on axioms: [propext, Quot.sound]
'Verif.Worker.Seed.C112_seeds' depends on axioms: [propext, Classical.choice, Quot.sound]
'Verif.Worker.Seed.C112_texts' depends on axioms: [propext, Classical.choice, Quot.sound]
'Verif.Worker.Seed.C112_user_seeds' depends on axioms: [propext]
'Verif.Worker.Seed.C112_violated_offset' does not depend on any axioms
'Verif.Worker.Seed.C112_violated_mixed' depends on axioms: [propext]
'Verif.Worker.Seed.C112_violated_other' does not depend on any axioms
'Verif.Worker.Seed.C112_violated_main' does not depend on any axioms
'Verif.Prep.C113_complete' depends on axioms: [propext, Classical.choice, Quot.sound]
'Verif.Prep.C113_first' depends on axioms: [propext, Classical.choice, Quot.sound]
'Verif.Prep.C113_first_refused' depends on axioms: [propext, Classical.choice, Quot.sound]
'Verif.Prep.C113_again_partial' depends on axioms: [propext, Classical.choice, Quot.sound]
'Verif.Prep.C113_violated_split' depends on axioms: [propext, Classical.choice, Quot.sound]
'Verif.Prep.C113_violated_info' depends on axioms: [propext, Classical.choice, Quot.sound]
'Verif.Sample.Pin.C114_pinned_partial' depends on axioms: [propext, Classical.choice, Quot.sound]
'Verif.Sample.Pin.C114_violated_dict' depends on axioms: [propext]
'Verif.Sample.Pin.C114_violated_init' depends on axioms: [propext, Quot.sound]
'Verif.Sample.Pin.C114_violated_post' depends on axioms: [propext, Classical.choice, Quot.sound]
'Verif.Sample.Pin.C114_violated_others' depends on axioms: [propext]
'Verif.Sample.Pin.C114_violated' depends on axioms: [propext]
'Verif.Describe.C115_config_partial' depends on axioms: [propext, Classical.choice, Quot.sound]
'Verif.Describe.C115_same_settings' depends on axioms: [propext, Classical.choice, Quot.sound]
'Verif.Describe.C115_loader' depends on axioms: [propext, Quot.sound]
'Verif.Describe.C115_factory_partial' depends on axioms: [propext]
'Verif.Describe.C115_logged' depends on axioms: [propext, Quot.sound]
'Verif.Describe.C115_violated_loader' depends on axioms: [propext, Classical.choice, Quot.sound]
'Verif.Describe.C115_violated_group' depends on axioms: [propext]
'Verif.Describe.C115_violated_seed' depends on axioms: [propext, Classical.choice, Quot.sound]
'Verif.Describe.C115_violated_functions' depends on axioms: [propext]
'Verif.Describe.C115_violated_exclude' depends on axioms: [propext, Classical.choice, Quot.sound]
'Verif.Describe.C115_violated_condition' depends on axioms: [propext, Quot.sound]
'Verif.Describe.C115_violated' depends on axioms: [propext, Quot.sound]
'Verif.Loader.C116_results' depends on axioms: [propext, Classical.choice, Quot.sound]
'Verif.Loader.C116_reported' depends on axioms: [propext, Classical.choice, Quot.sound]
'Verif.Loader.C116_end' depends on axioms: [propext, Classical.choice, Quot.sound]
'Verif.Loader.C116_returns' depends on axioms: [propext, Classical.choice, Quot.sound]
'Verif.Loader.C116_books' depends on axioms: [propext, Classical.choice, Quot.sound]
'Verif.Loader.C116_violated_lost' depends on axioms: [propext, Classical.choice, Quot.sound]
'Verif.Loader.C116_violated' depends on axioms: [propext, Classical.choice, Quot.sound]
'Verif.Preview.C117_part' depends on axioms: [propext, Classical.choice, Quot.sound]
'Verif.Preview.C117_all' depends on axioms: [propext, Classical.choice, Quot.sound]
'Verif.Preview.C117_shows' depends on axioms: [propext, Classical.choice, Quot.sound]
'Verif.Preview.C117_fits' depends on axioms: [propext, Classical.choice, Quot.sound]
'Verif.Preview.C117_violated_exit' depends on axioms: [propext, Quot.sound]
'Verif.Preview.C117_violated_values' depends on axioms: [propext]
'Verif.Preview.C117_violated_wide' depends on axioms: [propext, Classical.choice, Quot.sound]
'Verif.Preview.C117_violated_high' depends on axioms: [propext, Classical.choice, Quot.sound]
'Verif.Preview.C117_violated' depends on axioms: [propext]
'Verif.Pipeline.C118_each_exactly_once_partial' depends on axioms: [propext, Classical.choice, Quot.sound]
'Verif.Pipeline.C118_each_at_most_once_partial' depends on axioms: [propext, Classical.choice, Quot.sound]
'Verif.Pipeline.C118_same_samples_partial' depends on axioms: [propext, Classical.choice, Quot.sound]
'Verif.Pipeline.C118_each_contents_partial' depends on axioms: [propext, Classical.choice, Quot.sound]
'Verif.Loader.C119_exact_partial' depends on axioms: [propext, Classical.choice, Quot.sound]
'Verif.Loader.C119_available_partial' depends on axioms: [propext, Classical.choice, Quot.sound]
'Verif.Loader.C119_saved_partial' depends on axioms: [propext, Classical.choice, Quot.sound]
'Verif.Loader.C119_loader_partial' depends on axioms: [propext, Classical.choice, Quot.sound]
'Verif.Loader.C119_loader_saved_partial' depends on axioms: [propext, Classical.choice, Quot.sound]
'Verif.Loader.C119_violated_save' depends on axioms: [propext, Quot.sound]
'Verif.Loader.C119_violated_first' does not depend on any axioms
'Verif.Loader.C119_violated_silent' depends on axioms: [propext, Quot.sound]
'Verif.Stream.C12_filter_pass' depends on axioms: [propext, Quot.sound]
'Verif.Stream.C12_filter_items' depends on axioms: [propext, Quot.sound]
'Verif.Stream.C12_filter_resumes' depends on axioms: [propext]
'Verif.Stream.C12_log_pass' depends on axioms: [propext, Quot.sound]
'Verif.Stream.C12_log_items' depends on axioms: [propext, Quot.sound]
'Verif.Stream.C12_log_resumes' depends on axioms: [propext]
'Verif.Stream.C12_gc_pass' depends on axioms: [propext, Quot.sound]
'Verif.Stream.C12_gc_resumes' depends on axioms: [propext]
'Verif.Message.C120_short_partial' depends on axioms: [propext, Classical.choice, Quot.sound]
'Verif.Message.C120_default_partial' depends on axioms: [propext, Classical.choice, Quot.sound]
'Verif.Message.C120_depth' depends on axioms: [propext]
'Verif.Message.C120_items' depends on axioms: [propext]
'Verif.Message.C120_complete' depends on axioms: [propext, Classical.choice, Quot.sound]
'Verif.Message.C120_violated_bytes' depends on axioms: [propext, Classical.choice, Quot.sound]
'Verif.Message.C120_violated_special' depends on axioms: [propext, Classical.choice, Quot.sound]
'Verif.Gc.C121_safe' depends on axioms: [propext, Quot.sound]
'Verif.Gc.C121_collected' depends on axioms: [propext, Quot.sound]
'Verif.Gc.C121_unfrozen' depends on axioms: [propext, Quot.sound]
'Verif.Gc.C121_memory_partial' depends on axioms: [propext, Quot.sound]
'Verif.Gc.C121_worker' depends on axioms: [propext, Quot.sound]
'Verif.Gc.C121_violated_passes' depends on axioms: [propext, Classical.choice, Quot.sound]
'Verif.Gc.C121_violated_unfreeze' depends on axioms: [propext, Quot.sound]
'Verif.Gc.C121_violated_user' depends on axioms: [propext, Quot.sound]
'Verif.Gc.C121_frozen_partial' depends on axioms: [propext, Quot.sound]
'Verif.Loader.C122_worker_exact' depends on axioms: [propext, Quot.sound]
'Verif.Loader.C122_worker_goes_on' depends on axioms: [propext, Quot.sound]
'Verif.Loader.C122_worker_saved_partial' depends on axioms: [propext, Quot.sound]
'Verif.Pipeline.C122_training_worker_partial' depends on axioms: [propext, Classical.choice, Quot.sound]
'Verif.Loader.C122_loader_passes' depends on axioms: [propext, Classical.choice, Quot.sound]
'Verif.Loader.C122_loader_streams' depends on axioms: [propext, Classical.choice, Quot.sound]
'Verif.Loader.C122_loader_order' depends on axioms: [propext, Classical.choice, Quot.sound]
'Verif.Loader.C122_loader_length' depends on axioms: [propext, Classical.choice, Quot.sound]
'Verif.Loader.C122_loader_rounds' depends on axioms: [propext, Classical.choice, Quot.sound]
'Verif.Loader.C122_loader_first' depends on axioms: [propext, Classical.choice, Quot.sound]
'Verif.Loader.C122_loader_saved_partial' depends on axioms: [propext, Classical.choice, Quot.sound]
'Verif.Loader.C122_loader_goes_on' depends on axioms: [propext, Classical.choice, Quot.sound]
'Verif.Pipeline.C122_training_loader_partial' depends on axioms: [propext, Classical.choice, Quot.sound]
'Verif.Pipeline.C122_violated_rest' depends on axioms: [propext, Classical.choice, Quot.sound]
'Verif.Loader.C123_worker_exact' depends on axioms: [propext, Classical.choice, Quot.sound]
'Verif.Loader.C123_loader_partial' depends on axioms: [propext, Classical.choice, Quot.sound]
'Verif.Loader.C123_loader_between' depends on axioms: [propext, Classical.choice, Quot.sound]
'Verif.Pipeline.C123_val_loader_partial' depends on axioms: [propext, Classical.choice, Quot.sound]
'Verif.Loader.C123_violated_timing' depends on axioms: [propext, Quot.sound]
'Verif.Pipeline.C123_violated_several' depends on axioms: [propext, Classical.choice, Quot.sound]
'Verif.Pipeline.C123_violated_limit' depends on axioms: [propext, Classical.choice, Quot.sound]
'Verif.Pipeline.C123_violated_packing' depends on axioms: [propext, Classical.choice, Quot.sound]
'Verif.Pipeline.C123_violated_grouping' depends on axioms: [propext, Classical.choice, Quot.sound]
'Verif.Decode.C124_ignored_partial' depends on axioms: [propext, Quot.sound]
'Verif.Decode.C124_no_effect' depends on axioms: [propext]
'Verif.Decode.C124_no_decoder' depends on axioms: [propext, Quot.sound]
'Verif.Decode.C124_system' depends on axioms: [propext, Quot.sound]
'Verif.Decode.C124_violated' depends on axioms: [propext, Quot.sound]
'Verif.Decode.C124_violated_raises' depends on axioms: [propext, Quot.sound]
'Verif.Identity.C125_origin_partial' depends on axioms: [propext, Classical.choice, Quot.sound]
'Verif.Identity.C125_key_partial' depends on axioms: [propext, Classical.choice, Quot.sound]
'Verif.Identity.C125_crude_partial' depends on axioms: [propext, Classical.choice, Quot.sound]
'Verif.Identity.C125_cooked' depends on axioms: [propext, Quot.sound]
'Verif.Identity.C125_cooked_origin_partial' depends on axioms: [propext, Classical.choice, Quot.sound]
'Verif.Identity.C125_violated_file' depends on axioms: [propext, Classical.choice, Quot.sound]
'Verif.Identity.C125_violated' depends on axioms: [propext, Classical.choice, Quot.sound]
'Verif.Stream.C13_map_pass' depends on axioms: [propext, Quot.sound]
'Verif.Stream.C13_map_items' depends on axioms: [propext, Quot.sound]
'Verif.Stream.C13_map_fatal' depends on axioms: [propext, Quot.sound]
'Verif.Stream.C13_map_resumes' depends on axioms: [propext]
'Verif.Stream.C14_generator_pass' depends on axioms: [propext, Classical.choice, Quot.sound]
'Verif.Stream.C14_generator_items' depends on axioms: [propext, Classical.choice, Quot.sound]
'Verif.Stream.C14_generator_resumes_partial' depends on axioms: [propext, Quot.sound]
'Verif.Stream.C14_violated_index' depends on axioms: [propext]
'Verif.Stream.C14_violated_skip' depends on axioms: [propext]
'Verif.Stream.C14_violated_next_pass' depends on axioms: [propext]
'Verif.Stream.C15_blend_faithful' depends on axioms: [propext, Classical.choice, Quot.sound]
'Verif.Stream.C15_blend_never_ends' depends on axioms: [propext, Classical.choice, Quot.sound]
'Verif.Stream.C15_blend_productive' depends on axioms: [propext, Quot.sound]
'Verif.Stream.C16_blend_resumes' depends on axioms: [propext, Quot.sound]
'Verif.Stream.C17_blend_restores_partial' depends on axioms: [propext, Quot.sound]
'Verif.Stream.C17_violated' depends on axioms: [propext, Quot.sound]
'Verif.Stream.C17_violated_silently' depends on axioms: [propext, Quot.sound]
'Verif.Stream.C18_shares' depends on axioms: [propext, Classical.choice, Quot.sound]
'Verif.Stream.C18_shares_balanced' depends on axioms: [propext, Quot.sound]
'Verif.Stream.C18_limit_pass' depends on axioms: [propext, Quot.sound]
'Verif.Stream.C18_limit_items' depends on axioms: [propext, Quot.sound]
'Verif.Stream.C19_limit_resumes_partial' depends on axioms: [propext]
'Verif.Stream.C19_violated' depends on axioms: [propext]
'Verif.Stream.C20_epoch_length' depends on axioms: [propext, Quot.sound]
'Verif.Stream.C20_epochs_concat' depends on axioms: [propext, Quot.sound]
'Verif.Stream.C20_epoch_exists' depends on axioms: [propext, Quot.sound]
'Verif.Stream.C20_shares' depends on axioms: [propext, Classical.choice, Quot.sound]
'Verif.Stream.C21_epochize_resumes_partial' depends on axioms: [propext, Quot.sound]
'Verif.Stream.C21_violated' depends on axioms: [propext]
'Verif.Stream.C22_repeat_pass_partial' depends on axioms: [propext, Quot.sound]
'Verif.Stream.C22_violated_second_iteration' depends on axioms: [propext]
'Verif.Stream.C22_forever_never_ends' depends on axioms: [propext, Quot.sound]
'Verif.Stream.C22_forever_delivers' depends on axioms: [propext, Quot.sound]
'Verif.Stream.C22_forever_only' depends on axioms: [propext, Quot.sound]
'Verif.Stream.C23_repeat_forever_partial' depends on axioms: [propext, Quot.sound]
'Verif.Stream.C23_violated' depends on axioms: [propext]
'Verif.Stream.C23_violated_last' depends on axioms: [propext]
'Verif.Stream.C24_concat_pass' depends on axioms: [propext, Classical.choice, Quot.sound]
'Verif.Stream.C24_concat_first_part_partial' depends on axioms: [propext, Quot.sound]
'Verif.Stream.C24_violated' depends on axioms: [propext]
'Verif.Stream.C25_batch_pass' depends on axioms: [propext, Quot.sound]
'Verif.Stream.C25_batch_items' depends on axioms: [propext, Quot.sound]
'Verif.Stream.C26_batch_failures_partial' depends on axioms: [propext, Quot.sound]
'Verif.Stream.C26_violated' depends on axioms: [propext]
'Verif.Stream.C27_batch_len_partial' depends on axioms: [propext, Classical.choice, Quot.sound]
'Verif.Stream.C27_violated' depends on axioms: [propext, Classical.choice, Quot.sound]
'Verif.Stream.C28_group_pass' depends on axioms: [propext, Classical.choice, Quot.sound]
'Verif.Stream.C28_group_exactly_once' depends on axioms: [propext, Classical.choice, Quot.sound]
'Verif.Stream.C28_group_items' depends on axioms: [propext, Classical.choice, Quot.sound]
'Verif.Stream.C28_group_order' depends on axioms: [propext, Classical.choice, Quot.sound]
'Verif.Stream.C28_group_order_items' depends on axioms: [propext, Classical.choice, Quot.sound]
'Verif.Stream.C29_group_resumes_partial' depends on axioms: [propext, Quot.sound]
'Verif.Stream.C29_violated' depends on axioms: [propext]
'Verif.Stream.C30_packing_pass' depends on axioms: [propext, Classical.choice, Quot.sound]
'Verif.Stream.C30_exactly_once' depends on axioms: [propext]
'Verif.Stream.C30_buffer_bound' depends on axioms: [propext, Quot.sound]
'Verif.Stream.C30_round_limit' depends on axioms: [propext, Classical.choice, Quot.sound]
'Verif.Stream.C31_packing_resumes_endless_partial' depends on axioms: [propext, Quot.sound]
'Verif.Stream.C31_packing_resumes_partial' depends on axioms: [propext, Classical.choice, Quot.sound]
'Verif.Stream.C31_violated' depends on axioms: [propext]
'Verif.Stream.C31_violated_generator' depends on axioms: [propext]
'Verif.Stream.C31_violated_missing_state' depends on axioms: [propext]
'Verif.Wds.C32_passes' depends on axioms: [propext, Classical.choice, Quot.sound]
'Verif.Wds.C32_epochs' depends on axioms: [propext, Classical.choice, Quot.sound]
'Verif.Wds.C32_interrupted' depends on axioms: [propext, Classical.choice, Quot.sound]
'Verif.Wds.C32_length' depends on axioms: [propext, Classical.choice, Quot.sound]
'Verif.Wds.C32_live' depends on axioms: [propext, Classical.choice, Quot.sound]
'Verif.Wds.C32_never_ends' depends on axioms: [propext, Classical.choice, Quot.sound]
'Verif.Wds.C32_only_own_samples' depends on axioms: [propext, Classical.choice, Quot.sound]
'Verif.Wds.C32_replacement_never_ends' depends on axioms: [propext, Classical.choice, Quot.sound]
'Verif.Wds.C32_replacement_live' depends on axioms: [propext, Classical.choice, Quot.sound]
'Verif.Wds.C32_needs_counts' depends on axioms: [propext, Quot.sound]
'Verif.Wds.C33_resumes' depends on axioms: [propext, Classical.choice, Quot.sound]
'Verif.Wds.C33_violated_of_equal_slices' depends on axioms: [propext, Quot.sound]
'Verif.Wds.C33_reader_resumes' depends on axioms: [propext, Classical.choice, Quot.sound]
'Verif.Stream.C34_filter' depends on axioms: [propext]
'Verif.Stream.C34_map' depends on axioms: [propext]
'Verif.Stream.C34_map_generator' depends on axioms: [propext, Quot.sound]
'Verif.Stream.C34_log' depends on axioms: [propext]
'Verif.Stream.C34_shuffle' depends on axioms: [propext, Quot.sound]
'Verif.Stream.C34_limit' depends on axioms: [propext]
'Verif.Stream.C34_epochize' depends on axioms: [propext, Quot.sound]
'Verif.Stream.C34_repeat' depends on axioms: [propext, Quot.sound]
'Verif.Stream.C34_concat' depends on axioms: [propext, Quot.sound]
'Verif.Stream.C34_batch' depends on axioms: [propext, Quot.sound]
'Verif.Stream.C34_group' depends on axioms: [propext, Quot.sound]
'Verif.Stream.C34_packing' depends on axioms: [propext, Classical.choice, Quot.sound]
'Verif.Loader.C34_loader_worker' depends on axioms: [propext]
'Verif.Loader.C34_plain' depends on axioms: [propext]
'Verif.Wds.C34_reader' depends on axioms: [propext, Classical.choice, Quot.sound]
'Verif.Wds.C34_loader_raw' depends on axioms: [propext, Classical.choice, Quot.sound]
'Verif.Loader.C35_round_robin' depends on axioms: [propext, Classical.choice, Quot.sound]
'Verif.Loader.C35_complete' depends on axioms: [propext, Classical.choice, Quot.sound]
'Verif.Loader.C35_schedule_independent' depends on axioms: [propext, Classical.choice, Quot.sound]
'Verif.Loader.C35_progress' depends on axioms: [propext, Classical.choice, Quot.sound]
'Verif.Loader.C35_next_returns' depends on axioms: [propext, Classical.choice, Quot.sound]
'Verif.Loader.C35_worker_stream' depends on axioms: [propext, Classical.choice, Quot.sound]
'Verif.Loader.C35_prefetch' depends on axioms: [propext, Classical.choice, Quot.sound]
'Verif.Loader.C35_terminates' depends on axioms: [propext, Classical.choice, Quot.sound]
'Verif.Loader.C35_loop' depends on axioms: [propext, Classical.choice, Quot.sound]
'Verif.Loader.C35_no_deadlock' depends on axioms: [propext, Classical.choice, Quot.sound]
'Verif.Loader.C36_worker_exact_partial' depends on axioms: [propext, Classical.choice, Quot.sound]
'Verif.Loader.C36_worker_pass_partial' depends on axioms: [propext, Classical.choice, Quot.sound]
'Verif.Loader.C36_loader_streams_partial' depends on axioms: [propext, Classical.choice, Quot.sound]
'Verif.Loader.C36_save_possible_partial' depends on axioms: [propext, Classical.choice, Quot.sound]
'Verif.Loader.C36_loader_exact_partial' depends on axioms: [propext, Classical.choice, Quot.sound]
'Verif.Loader.C36_two_workers_partial' depends on axioms: [propext, Classical.choice, Quot.sound]
'Verif.Loader.C36_violated_three_workers' depends on axioms: [propext, Classical.choice, Quot.sound]
'Verif.Loader.C36_violated_early_save' depends on axioms: [propext, Quot.sound]
'Verif.Loader.C36_violated_second_save' depends on axioms: [propext, Classical.choice, Quot.sound]
'Verif.Loader.C36_violated_end' depends on axioms: [propext, Quot.sound]
'Verif.Loader.C37_checkpoint_available_partial' depends on axioms: [propext, Classical.choice, Quot.sound]
'Verif.Loader.C37_violated_end' depends on axioms: [propext]
'Verif.Io.C38_round_trip' depends on axioms: [propext, Quot.sound]
'Verif.Io.C38_reader_offsets' depends on axioms: [propext, Quot.sound]
'Verif.Io.C38_atomic' depends on axioms: [propext, Quot.sound]
'Verif.Io.C38_reader_after_crash' depends on axioms: [propext, Quot.sound]
'Verif.Io.C38_outcome' depends on axioms: [propext, Quot.sound]
'Verif.Io.C38_can_finish' does not depend on any axioms
'Verif.Wds.C39_slice' depends on axioms: [propext, Classical.choice, Quot.sound]
'Verif.Wds.C39_count' depends on axioms: [propext, Quot.sound]
'Verif.Wds.C39_sequential' depends on axioms: [propext, Classical.choice, Quot.sound]
'Verif.Wds.C39_parts' depends on axioms: [propext, Classical.choice, Quot.sound]
'Verif.Wds.C39_parts_nodup' depends on axioms: [propext, Quot.sound]
'Verif.Io.C40_clamped' depends on axioms: [propext, Classical.choice, Quot.sound]
'Verif.Io.C40_sub_file_partial' depends on axioms: [propext, Classical.choice, Quot.sound]
'Verif.Io.C40_only_range' depends on axioms: [propext, Classical.choice, Quot.sound]
'Verif.Io.C40_violated_seek' does not depend on any axioms
'Verif.Io.C40_violated_read' does not depend on any axioms
'Verif.Io.C41_reads_partial' depends on axioms: [propext, Classical.choice, Quot.sound]
'Verif.Io.C41_violated_short' does not depend on any axioms
'Verif.Io.C41_violated_none' does not depend on any axioms
'Verif.Io.C41_violated_seek' does not depend on any axioms
'Verif.Wds.C42_delivered' depends on axioms: [propext, Classical.choice, Quot.sound]
'Verif.Wds.C42_restore_partial' depends on axioms: [propext, Classical.choice, Quot.sound]
'Verif.Wds.C42_violated' depends on axioms: [propext, Classical.choice, Quot.sound]
'Verif.Prep.C43_no_shard_twice_partial' depends on axioms: [propext, Classical.choice, Quot.sound]
'Verif.Prep.C43_disjoint_partial' depends on axioms: [propext, Classical.choice, Quot.sound]
'Verif.Prep.C43_at_most_one_lost_partial' depends on axioms: [propext, Classical.choice, Quot.sound]
'Verif.Prep.C43_one_part_partial' depends on axioms: [propext, Classical.choice, Quot.sound]
'Verif.Prep.C43_two_parts_partial' depends on axioms: [propext, Classical.choice, Quot.sound]
'Verif.Prep.C43_violated' depends on axioms: [propext, Classical.choice, Quot.sound]
'Verif.Prep.C43_violated_names' depends on axioms: [propext, Classical.choice, Quot.sound]
'Verif.Prep.C43_patterns_partial' depends on axioms: [propext, Quot.sound]
'Verif.Prep.C43_patterns_split_partial' depends on axioms: [propext, Classical.choice, Quot.sound]
'Verif.Meta.C44_sum' depends on axioms: [propext, Classical.choice, Quot.sound]
'Verif.Meta.C44_weights' depends on axioms: [propext, Classical.choice, Quot.sound]
'Verif.Meta.C45_options' depends on axioms: [propext, Classical.choice, Quot.sound]
'Verif.Meta.C45_total' depends on axioms: [propext, Classical.choice, Quot.sound]
'Verif.Meta.C45_subflavors' depends on axioms: [propext, Classical.choice, Quot.sound]
'Verif.Task.C46_outer_untouched' does not depend on any axioms
'Verif.Task.C46_call_partial' depends on axioms: [propext]
'Verif.Task.C46_generator_partial' depends on axioms: [propext, Classical.choice, Quot.sound]
'Verif.Task.C46_seed_of_restored' depends on axioms: [propext]
'Verif.Task.C46_violated' does not depend on any axioms
'Verif.Task.C46_violated_generator' does not depend on any axioms
'Verif.Task.C46_violated_restore' depends on axioms: [propext]
'Verif.Task.C46_violated_rank' depends on axioms: [propext]
'Verif.Task.C47_first_match' depends on axioms: [propext, Classical.choice, Quot.sound]
'Verif.Task.C47_only_match' depends on axioms: [propext, Classical.choice, Quot.sound]
'Verif.Task.C47_no_match_partial' depends on axioms: [propext, Classical.choice, Quot.sound]
'Verif.Task.C47_samples_pass' does not depend on any axioms
'Verif.Task.C47_violated' does not depend on any axioms
'Verif.Path.C48_join' depends on axioms: [propext, Classical.choice, Quot.sound]
'Verif.Path.C48_from' depends on axioms: [propext, Classical.choice, Quot.sound]
'Verif.Path.C48_error_iff' depends on axioms: [propext, Classical.choice, Quot.sound]
'Verif.Path.C48_down' depends on axioms: [propext, Classical.choice, Quot.sound]
'Verif.Path.C48_absolute' depends on axioms: [propext]
'Verif.Path.C48_idem' depends on axioms: [propext, Classical.choice, Quot.sound]
'Verif.Path.C48_assoc' depends on axioms: [propext, Classical.choice, Quot.sound]
'Verif.Path.C48_parent' depends on axioms: [propext, Classical.choice, Quot.sound]
'Verif.Path.C48_remote_partial' depends on axioms: [propext, Classical.choice, Quot.sound]
'Verif.Path.C48_violated_remote' depends on axioms: [propext, Classical.choice, Quot.sound]
'Verif.Path.C48_violated_double' depends on axioms: [propext, Classical.choice, Quot.sound]
'Verif.Task.C49_padded_partial' depends on axioms: [propext, Classical.choice, Quot.sound]
'Verif.Task.C49_succeeds' depends on axioms: [propext, Quot.sound]
'Verif.Task.C49_violated' depends on axioms: [propext]
'Verif.Transform.C50_size' depends on axioms: [propext, Classical.choice, Quot.sound]
'Verif.Transform.C50_affine' depends on axioms: [propext, Classical.choice, Quot.sound]
'Verif.Transform.C50_perspective_partial' depends on axioms: [propext, Classical.choice, Quot.sound]
'Verif.Transform.C50_shown_partial' depends on axioms: [propext, Classical.choice, Quot.sound]
'Verif.Transform.C50_shown_only' depends on axioms: [propext, Classical.choice, Quot.sound]
'Verif.Transform.C50_corners' depends on axioms: [propext, Classical.choice, Quot.sound]
'Verif.Transform.C50_tensor' depends on axioms: [propext, Classical.choice, Quot.sound]
'Verif.Transform.C50_flip_chance' depends on axioms: [propext, Quot.sound]
'Verif.Transform.C50_violated_reveal' depends on axioms: [propext, Classical.choice, Quot.sound]
'Verif.Transform.C50_violated_center' depends on axioms: [propext, Classical.choice, Quot.sound]
'Verif.Transform.C50_violated_padding' depends on axioms: [propext, Classical.choice, Quot.sound]
'Verif.Transform.C50_violated_tensor' depends on axioms: [propext, Classical.choice, Quot.sound]
'Verif.Transform.C50_violated_chance' depends on axioms: [propext, Classical.choice, Quot.sound]
'Verif.Transform.C50_tensor_perspective_partial' depends on axioms: [propext, Classical.choice, Quot.sound]
'Verif.Stream.C51_batch_resumes' depends on axioms: [propext]
'Verif.Stream.C51_batch_resumes_endless' depends on axioms: [propext]
'Verif.Stream.C51_batch_resumes_drop_last' depends on axioms: [propext]
'Verif.Stream.C52_iter_map_pass' depends on axioms: [propext, Classical.choice, Quot.sound]
'Verif.Stream.C52_iter_map_items' depends on axioms: [propext, Classical.choice, Quot.sound]
'Verif.Stream.C52_iter_map_resumes_partial' depends on axioms: [propext, Classical.choice, Quot.sound]
'Verif.Stream.C52_iter_map_restores_partial' depends on axioms: [propext, Classical.choice, Quot.sound]
'Verif.Stream.C52_violated' depends on axioms: [propext]
'Verif.Stream.C52_restores_violated' depends on axioms: [propext]
'Verif.Stream.C52_restores_violated_failure' depends on axioms: [propext]
'Verif.Loader.C53_pass' depends on axioms: [propext, Quot.sound]
'Verif.Loader.C53_resumes_partial' depends on axioms: [propext, Quot.sound]
'Verif.Loader.C53_violated' depends on axioms: [propext]
'Verif.Wds.C54_same_key' depends on axioms: [propext, Quot.sound]
'Verif.Wds.C54_all' depends on axioms: [propext, Quot.sound]
'Verif.Wds.C54_tars' depends on axioms: [propext, Classical.choice, Quot.sound]
'Verif.Wds.C54_violated' depends on axioms: [propext, Classical.choice, Quot.sound]
'Verif.Wds.C54_detects' depends on axioms: [propext, Quot.sound]
'Verif.Wds.C54_tars_detects' depends on axioms: [propext, Classical.choice, Quot.sound]
'Verif.Wds.C55_split' depends on axioms: [propext, Classical.choice, Quot.sound]
'Verif.Wds.C55_same_sample' depends on axioms: [propext, Quot.sound]
'Verif.Wds.C55_meta' depends on axioms: [propext, Quot.sound]
'Verif.Wds.C55_groups' depends on axioms: [propext, Quot.sound]
'Verif.Wds.C55_part' depends on axioms: [propext, Classical.choice, Quot.sound]
'Verif.Wds.C56_violated' depends on axioms: [propext]
'Verif.Wds.C56_without_prefix_partial' depends on axioms: [propext, Classical.choice, Quot.sound]
'Verif.Meta.C57_multiplier_partial' depends on axioms: [propext, Classical.choice, Quot.sound]
'Verif.Meta.C57_violated_join' depends on axioms: [propext, Classical.choice, Quot.sound]
'Verif.Meta.C57_violated_infinite' depends on axioms: [propext, Classical.choice, Quot.sound]
'Verif.Meta.C58_ref_partial' depends on axioms: [propext, Classical.choice, Quot.sound]
'Verif.Meta.C58_violated' does not depend on any axioms
'Verif.Prep.C59_loads' depends on axioms: [propext, Classical.choice, Quot.sound]
'Verif.Prep.C59_empty' depends on axioms: [propext, Classical.choice, Quot.sound]
'Verif.Prep.C59_prepared' depends on axioms: [propext, Classical.choice, Quot.sound]
'Verif.Prep.C59_prepared_patterns' depends on axioms: [propext, Classical.choice, Quot.sound]
'Verif.Task.C60_fields_partial' depends on axioms: [propext]
'Verif.Task.C60_leaves_partial' depends on axioms: [propext]
'Verif.Task.C60_violated' depends on axioms: [propext]
'Verif.Path.C61_local' depends on axioms: [propext, Classical.choice, Quot.sound]
'Verif.Path.C61_url' depends on axioms: [propext, Classical.choice, Quot.sound]
'Verif.Path.C61_injective' depends on axioms: [propext, Classical.choice, Quot.sound]
'Verif.Path.C61_relative' depends on axioms: [propext, Classical.choice, Quot.sound]
'Verif.Path.C61_relative_iff' depends on axioms: [propext, Classical.choice, Quot.sound]
'Verif.Path.C61_protocols' depends on axioms: [propext, Classical.choice, Quot.sound]
'Verif.Path.C62_index_partial' depends on axioms: [propext, Classical.choice, Quot.sound]
'Verif.Path.C62_violated' depends on axioms: [propext, Classical.choice, Quot.sound]
'Verif.Path.C62_violated_hidden' depends on axioms: [propext, Classical.choice, Quot.sound]
'Verif.Transform.C63_common' depends on axioms: [propext, Quot.sound]
'Verif.Transform.C64_inside_partial' depends on axioms: [propext, Classical.choice, Quot.sound]
'Verif.Transform.C64_try_pixels' depends on axioms: [propext, Classical.choice, Quot.sound]
'Verif.Transform.C64_fallback_pixels_partial' depends on axioms: [propext, Classical.choice, Quot.sound]
'Verif.Transform.C64_violated' depends on axioms: [propext, Classical.choice, Quot.sound]
'Verif.Transform.C64_fallback_centre' depends on axioms: [propext, Classical.choice, Quot.sound]
'Verif.Pipeline.C65_train_resumes_partial' depends on axioms: [propext, Classical.choice, Quot.sound]
'Verif.Pipeline.C65_violated_small_part' depends on axioms: [propext, Classical.choice, Quot.sound]
'Verif.Pipeline.C66_train_restores_partial' depends on axioms: [propext, Classical.choice, Quot.sound]
'Verif.Pipeline.C66_val_restores_partial' depends on axioms: [propext, Classical.choice, Quot.sound]
'Verif.Pipeline.C66_violated_grouping' depends on axioms: [propext, Classical.choice, Quot.sound]
'Verif.Pipeline.C67_val_exactly_once_partial' depends on axioms: [propext, Classical.choice, Quot.sound]
'Verif.Pipeline.C67_val_at_most_once_partial' depends on axioms: [propext, Classical.choice, Quot.sound]
'Verif.Pipeline.C67_violated_max_samples' depends on axioms: [propext, Classical.choice, Quot.sound]
'Verif.Pipeline.C68_val_contents_partial' depends on axioms: [propext, Classical.choice, Quot.sound]
'Verif.Pipeline.C68_violated_encode_batch' depends on axioms: [propext, Classical.choice, Quot.sound]
'Verif.Pipeline.C69_train_contents_partial' depends on axioms: [propext, Classical.choice, Quot.sound]
'Verif.Pipeline.C69_uninterrupted_partial' depends on axioms: [propext, Classical.choice, Quot.sound]
'Verif.Pipeline.C69_shares' depends on axioms: [propext, Classical.choice, Quot.sound]
'Verif.Pipeline.C69_shares_disjoint' depends on axioms: [propext, Classical.choice, Quot.sound]
'Verif.Config.C70_split' depends on axioms: [propext, Quot.sound]
'Verif.Config.C70_first' depends on axioms: [propext, Classical.choice, Quot.sound]
'Verif.Config.C70_fails' depends on axioms: [propext, Classical.choice, Quot.sound]
'Verif.Config.C70_parts' depends on axioms: [propext, Classical.choice, Quot.sound]
'Verif.Config.C70_sample' depends on axioms: [propext, Classical.choice, Quot.sound]
'Verif.Config.C70_index' depends on axioms: [propext, Quot.sound]
'Verif.Config.C70_malformed' depends on axioms: [propext, Quot.sound]
'Verif.Config.C71_violated' depends on axioms: [propext, Classical.choice, Quot.sound]
'Verif.Config.C71_violated_no_sample' depends on axioms: [propext, Classical.choice, Quot.sound]
'Verif.Config.C71_accept_partial' depends on axioms: [propext, Classical.choice, Quot.sound]
'Verif.Config.C72_accepts' depends on axioms: [propext, Classical.choice, Quot.sound]
'Verif.Config.C72_accepts_iff' depends on axioms: [propext, Classical.choice, Quot.sound]
'Verif.Config.C72_union' depends on axioms: [propext, Classical.choice, Quot.sound]
'Verif.Config.C72_literal' depends on axioms: [propext, Classical.choice, Quot.sound]
'Verif.Config.C73_typed_partial' depends on axioms: [propext, Classical.choice, Quot.sound]
'Verif.Config.C73_violated_tuple' depends on axioms: [propext, Classical.choice, Quot.sound]
'Verif.Config.C73_violated_keys' depends on axioms: [propext, Classical.choice, Quot.sound]
'Verif.Config.C73_violated_class' depends on axioms: [propext, Classical.choice, Quot.sound]
'Verif.Config.C73_violated' depends on axioms: [propext, Classical.choice, Quot.sound]
'Verif.Config.C74_round_trip_partial' depends on axioms: [propext, Classical.choice, Quot.sound]
'Verif.Config.C74_metadata' depends on axioms: [propext, Classical.choice, Quot.sound]
'Verif.Config.C74_violated' depends on axioms: [propext, Classical.choice, Quot.sound]
'Verif.Config.C75_default' depends on axioms: [propext, Classical.choice, Quot.sound]
'Verif.Config.C75_named' depends on axioms: [propext, Classical.choice, Quot.sound]
'Verif.Config.C75_kwargs' depends on axioms: [propext, Classical.choice, Quot.sound]
'Verif.Config.C75_violated_default' depends on axioms: [propext, Classical.choice, Quot.sound]
'Verif.Config.C75_function' depends on axioms: [propext, Classical.choice, Quot.sound]
'Verif.Config.C75_nested' depends on axioms: [propext, Classical.choice, Quot.sound]
'Verif.Config.C75_type' depends on axioms: [propext, Classical.choice, Quot.sound]
'Verif.Config.C75_callable' depends on axioms: [propext, Classical.choice, Quot.sound]
'Verif.Config.C76_reversed' depends on axioms: [propext, Quot.sound]
'Verif.Config.C76_violated' depends on axioms: [propext, Classical.choice, Quot.sound]
'Verif.Config.C76_one_partial' depends on axioms: [propext, Classical.choice, Quot.sound]
'Verif.Pipeline.C77_train_flows' depends on axioms: [propext, Classical.choice, Quot.sound]
'Verif.Pipeline.C77_train_never_stalls_partial' depends on axioms: [propext, Classical.choice, Quot.sound]
'Verif.Pipeline.C77_violated_rejects' depends on axioms: [propext, Quot.sound]
'Verif.Pipeline.C77_violated_groups' depends on axioms: [propext, Classical.choice, Quot.sound]
'Verif.Pipeline.C78_training_loader_partial' depends on axioms: [propext, Classical.choice, Quot.sound]
'Verif.Pipeline.C78_contents_partial' depends on axioms: [propext, Classical.choice, Quot.sound]
'Verif.Pipeline.C36_workers_answer' depends on axioms: [propext, Classical.choice, Quot.sound]
'Verif.Pipeline.C79_val_loader_exactly_once_partial' depends on axioms: [propext, Classical.choice, Quot.sound]
'Verif.Pipeline.C79_val_loader_at_most_once_partial' depends on axioms: [propext, Classical.choice, Quot.sound]
'Verif.Pipeline.C79_loop_order' depends on axioms: [propext, Classical.choice, Quot.sound]
'Verif.Loader.C35_loop' depends on axioms: [propext, Classical.choice, Quot.sound]
'Verif.Loader.C35_terminates' depends on axioms: [propext, Classical.choice, Quot.sound]
'Verif.Pipeline.C79_keys_unique' depends on axioms: [propext, Classical.choice, Quot.sound]
'Verif.Pipeline.C79_val_loader_contents_partial' depends on axioms: [propext, Classical.choice, Quot.sound]
'Verif.Pipeline.C79_left' depends on axioms: [propext, Classical.choice, Quot.sound]
'Verif.Pipeline.C79_left_ends' depends on axioms: [propext, Classical.choice, Quot.sound]
'Verif.Pipeline.C79_left_exactly_once_partial' depends on axioms: [propext, Classical.choice, Quot.sound]
'Verif.Pipeline.C79_left_at_most_once_partial' depends on axioms: [propext, Classical.choice, Quot.sound]
'Verif.Pipeline.C80_train_epochs' depends on axioms: [propext, Classical.choice, Quot.sound]
'Verif.Pipeline.C80_train_partial' depends on axioms: [propext, Classical.choice, Quot.sound]
'Verif.Pipeline.C80_val_partial' depends on axioms: [propext, Classical.choice, Quot.sound]
'Verif.Loader.C80_workers_loop' depends on axioms: [propext, Classical.choice, Quot.sound]
'Verif.Pipeline.C80_violated_generator' depends on axioms: [propext, Classical.choice, Quot.sound]
'Verif.Pipeline.C80_violated_packer' depends on axioms: [propext, Classical.choice, Quot.sound]
'Verif.Pipeline.C80_violated_concat' depends on axioms: [propext, Classical.choice, Quot.sound]
'Verif.Pipeline.C80_violated_limit' depends on axioms: [propext, Classical.choice, Quot.sound]
'Verif.Loader.C80_violated_workers' depends on axioms: [propext, Classical.choice, Quot.sound]
'Verif.Ranks.C81_gathered' depends on axioms: [propext, Quot.sound]
'Verif.Ranks.C81_gathered_at_partial' depends on axioms: [propext, Classical.choice, Quot.sound]
'Verif.Ranks.C81_violated_group' depends on axioms: [propext, Classical.choice, Quot.sound]
'Verif.Ranks.C81_scattered' depends on axioms: [propext, Quot.sound]
'Verif.Ranks.C81_violated_src' depends on axioms: [propext, Quot.sound]
'Verif.Ranks.C81_violated_src_list' depends on axioms: [propext, Quot.sound]
'Verif.Ranks.C81_restart_partial' depends on axioms: [propext, Quot.sound]
'Verif.Ranks.C81_single_partial' depends on axioms: [propext, Quot.sound]
'Verif.Ranks.C81_list_refused' depends on axioms: [propext, Quot.sound]
'Verif.Ranks.C81_job_partial' depends on axioms: [propext, Quot.sound]
'Verif.Ranks.C81_violated_saved_again' depends on axioms: [propext, Quot.sound]
'Verif.Ranks.C81_training_partial' depends on axioms: [propext, Classical.choice, Quot.sound]
'Verif.Ranks.C81_src_single' depends on axioms: [propext, Classical.choice, Quot.sound]
'Verif.Mix.C82_concat_succeeds' depends on axioms: [propext, Quot.sound]
'Verif.Mix.C82_concat_partial' depends on axioms: [propext, Classical.choice, Quot.sound]
'Verif.Mix.C82_as_if_batched' depends on axioms: [propext, Quot.sound]
'Verif.Mix.C82_violated_dtype' depends on axioms: [propext]
'Verif.Mix.C82_fields_partial' depends on axioms: [propext]
'Verif.Mix.C82_violated_lists' depends on axioms: [propext]
'Verif.Mix.C82_mixed' depends on axioms: [propext, Classical.choice, Quot.sound]
'Verif.Mix.C82_never_ends' depends on axioms: [propext, Classical.choice, Quot.sound]
'Verif.Mix.C82_resumes' depends on axioms: [propext, Classical.choice, Quot.sound]
'Verif.Mix.C82_violated_restore' depends on axioms: [propext]
'Verif.Mix.C82_violated_types' depends on axioms: [propext, Quot.sound]
'Verif.Mix.C82_homogeneous' depends on axioms: [propext, Quot.sound]
'Verif.Stream.C83_map' depends on axioms: [propext]
'Verif.Stream.C83_map_generator' depends on axioms: [propext]
'Verif.Stream.C83_iter_map' depends on axioms: [propext]
'Verif.Pipeline.C83_train' depends on axioms: [propext, Classical.choice, Quot.sound]
'Verif.Pipeline.C83_val' depends on axioms: [propext, Classical.choice, Quot.sound]
'Verif.Stream.C84_pass' depends on axioms: [propext, Classical.choice, Quot.sound]
'Verif.Stream.C84_pass_keys' depends on axioms: [propext, Classical.choice, Quot.sound]
'Verif.Stream.C84_items' depends on axioms: [propext, Classical.choice, Quot.sound]
'Verif.Stream.C84_restores_samples' depends on axioms: [propext, Quot.sound]
'Verif.Stream.C84_resumes_partial' depends on axioms: [propext, Quot.sound]
'Verif.Stream.C84_violated_index' depends on axioms: [propext]
'Verif.Stream.C84_violated_skip' depends on axioms: [propext]
'Verif.Stream.C84_violated_next_pass' depends on axioms: [propext]
'Verif.Stream.C84_violated_kept' depends on axioms: [propext, Quot.sound]
'Verif.Lint.C85_serial_partial' depends on axioms: [propext, Classical.choice, Quot.sound]
'Verif.Lint.C85_workers' depends on axioms: [propext, Classical.choice, Quot.sound]
'Verif.Lint.C85_healthy' depends on axioms: [propext, Classical.choice, Quot.sound]
'Verif.Lint.C85_index' depends on axioms: [propext, Classical.choice, Quot.sound]
'Verif.Lint.C85_violated' depends on axioms: [propext, Classical.choice, Quot.sound]
'Verif.Lint.C85_violated_empty' depends on axioms: [propext, Classical.choice, Quot.sound]
'Verif.Lint.C85_violated_file' depends on axioms: [propext]
'Verif.Lint.C86_calls_partial' depends on axioms: [propext, Quot.sound]
'Verif.Lint.C86_fatal' depends on axioms: [propext, Quot.sound]
'Verif.Lint.C86_key' depends on axioms: [propext, Quot.sound]
'Verif.Lint.C86_violated' depends on axioms: [propext]
'Verif.Lint.C86_violated_always' depends on axioms: [propext, Quot.sound]
'Verif.Loader.Cmd.C87_answers_partial' depends on axioms: [propext, Classical.choice, Quot.sound]
'Verif.Loader.Cmd.C87_exclusive' depends on axioms: [propext, Classical.choice, Quot.sound]
'Verif.Loader.Cmd.C87_no_deadlock' depends on axioms: [propext, Classical.choice, Quot.sound]
'Verif.Loader.Cmd.C87_returns' depends on axioms: [propext, Classical.choice, Quot.sound]
'Verif.Loader.Cmd.C87_violated' depends on axioms: [propext, Quot.sound]
'Verif.Loader.Cmd.C87_early_checkpoint' does not depend on any axioms
'Verif.Stream.C88_filter' depends on axioms: [propext]
'Verif.Stream.C88_map' depends on axioms: [propext]
'Verif.Stream.C88_log' depends on axioms: [propext]
'Verif.Stream.C88_gc' depends on axioms: [propext]
'Verif.Stream.C88_map_generator' depends on axioms: [propext]
'Verif.Stream.C88_iter_map' depends on axioms: [propext]
'Verif.Stream.C88_batch' depends on axioms: [propext]
'Verif.Stream.C88_batch_generator' depends on axioms: [propext]
'Verif.Stream.C88_shuffle' depends on axioms: [propext]
'Verif.Stream.C88_group' depends on axioms: [propext, Quot.sound]
'Verif.Stream.C88_pack' depends on axioms: [propext, Quot.sound]
'Verif.Stream.C88_limit' depends on axioms: [propext, Quot.sound]
'Verif.Stream.C88_epochize' depends on axioms: [propext]
'Verif.Stream.C88_repeat' depends on axioms: [propext]
'Verif.Stream.C88_blend' depends on axioms: [propext, Classical.choice, Quot.sound]
'Verif.Stream.C88_concat' depends on axioms: [propext, Quot.sound]
'Verif.Wds.C88_reader' depends on axioms: [propext, Classical.choice, Quot.sound]
'Verif.Stream.C88_violated_limit' depends on axioms: [propext]
'Verif.Stream.C88_violated_repeat' depends on axioms: [propext, Quot.sound]
'Verif.Stream.C89_filter' depends on axioms: [propext]
'Verif.Stream.C89_map' depends on axioms: [propext]
'Verif.Stream.C89_log' depends on axioms: [propext]
'Verif.Stream.C89_gc' depends on axioms: [propext]
'Verif.Stream.C89_map_generator' depends on axioms: [propext]
'Verif.Stream.C89_iter_map' depends on axioms: [propext]
'Verif.Stream.C89_batch' depends on axioms: [propext]
'Verif.Stream.C89_batch_generator' depends on axioms: [propext]
'Verif.Stream.C89_pack' depends on axioms: [propext]
'Verif.Stream.C89_limit' depends on axioms: [propext]
'Verif.Stream.C89_repeat' depends on axioms: [propext, Quot.sound]
'Verif.Stream.C89_concat' depends on axioms: [propext, Quot.sound]
'Verif.Wds.C89_reader' depends on axioms: [propext, Quot.sound]
'Verif.Stream.C89_limit_periodic' depends on axioms: [propext]
'Verif.Pipeline.C89_validation' depends on axioms: [propext, Classical.choice, Quot.sound]
'Verif.Pipeline.C89_validation_periodic' depends on axioms: [propext, Classical.choice, Quot.sound]
'Verif.Stream.C89_shuffle_partial' depends on axioms: [propext]
'Verif.Stream.C89_blend_partial' depends on axioms: [propext, Quot.sound]
'Verif.Stream.C89_group_partial' depends on axioms: [propext, Quot.sound]
'Verif.Wds.C89_reader_shuffled_partial' depends on axioms: [propext, Quot.sound]
'Verif.Stream.C89_violated_shuffle' depends on axioms: [propext]
'Verif.Stream.C89_violated_blend' depends on axioms: [propext]
'Verif.Stream.C89_violated_group' depends on axioms: [propext]
'Verif.Stream.C89_violated_epochize' depends on axioms: [propext, Quot.sound]
'Verif.Sharder.C90_power_of_two_partial' depends on axioms: [propext, Classical.choice, Quot.sound]
'Verif.Sharder.C90_one_worker_partial' depends on axioms: [propext, Classical.choice, Quot.sound]
'Verif.Sharder.C90_violated' depends on axioms: [propext, Classical.choice, Quot.sound]
'Verif.Sample.C91_extend' depends on axioms: [propext, Quot.sound]
'Verif.Sample.C91_derive_from' depends on axioms: [propext, Quot.sound]
'Verif.Sample.C91_from_joined' depends on axioms: [propext, Quot.sound]
'Verif.Sample.C91_no_primary' depends on axioms: [propext]
'Verif.Sample.C91_joined_fields' depends on axioms: [propext, Quot.sound]
'Verif.Sample.C91_encode_sample' depends on axioms: [propext, Quot.sound]
'Verif.Sample.C91_encode_same' depends on axioms: [propext]
'Verif.Sample.C91_encode_batch' depends on axioms: [propext, Quot.sound]
'Verif.Worker.C92_kept_partial' depends on axioms: [propext, Quot.sound]
'Verif.Worker.C92_different_files' depends on axioms: [propext, Quot.sound]
'Verif.Worker.C92_violated' depends on axioms: [propext]
'Verif.Stream.C93_readers_partial' depends on axioms: [propext, Classical.choice, Quot.sound]
'Verif.Stream.C93_loader_keeps' depends on axioms: [propext, Quot.sound]
'Verif.Stream.C93_filter_keeps' depends on axioms: [propext]
'Verif.Stream.C93_log_keeps' depends on axioms: [propext]
'Verif.Stream.C93_gc_keeps' depends on axioms: [propext]
'Verif.Stream.C93_blend_keeps' depends on axioms: [propext, Classical.choice, Quot.sound]
'Verif.Stream.C93_concat_keeps' depends on axioms: [propext, Classical.choice, Quot.sound]
'Verif.Stream.C93_repeat_keeps' depends on axioms: [propext, Quot.sound]
'Verif.Stream.Held.Keeps.again' does not depend on any axioms
'Verif.Stream.C93_map_contents_partial' depends on axioms: [propext, Quot.sound]
'Verif.Stream.C93_violated_shuffle' depends on axioms: [propext, Quot.sound]
'Verif.Stream.C93_violated_epochize' depends on axioms: [propext, Quot.sound]
'Verif.Stream.C93_violated_limit' depends on axioms: [propext, Quot.sound]
'Verif.Stream.C93_violated_repeat' depends on axioms: [propext, Quot.sound]
'Verif.Stream.C93_violated_map' depends on axioms: [propext, Quot.sound]
'Verif.Stream.C93_violated_batch' depends on axioms: [propext, Quot.sound]
'Verif.Stream.C93_violated_stack' depends on axioms: [propext, Quot.sound]
'Verif.Stream.C94_reader' depends on axioms: [propext, Classical.choice, Quot.sound]
'Verif.Stream.C94_wrapped_partial' depends on axioms: [propext]
'Verif.Stream.C94_epochize_unused_partial' depends on axioms: [propext]
'Verif.Stream.C94_violated' depends on axioms: [propext, Classical.choice, Quot.sound]
'Verif.Stream.C94_violated_save' depends on axioms: [propext, Classical.choice, Quot.sound]
'Verif.Stream.C94_kept_partial' depends on axioms: [propext, Classical.choice, Quot.sound]
'Verif.Stream.C94_forgets' depends on axioms: [propext]
'Verif.Stream.C94_epochize_goes_on' depends on axioms: [propext]
'Verif.Stream.C94_epochize_new_partial' depends on axioms: [propext]
'Verif.Stream.C94_violated_twice' depends on axioms: [propext, Quot.sound]
'Verif.Meta.C95_unique' depends on axioms: [propext, Quot.sound]
'Verif.Meta.C95_moved' depends on axioms: [propext, Classical.choice, Quot.sound]
'Verif.Meta.C95_loads' depends on axioms: [propext, Quot.sound]
'Verif.Meta.C95_circle' depends on axioms: [propext, Quot.sound]
'Verif.Meta.C96_dataset_partial' depends on axioms: [propext, Classical.choice, Quot.sound]
'Verif.Meta.C96_subflavors' depends on axioms: [propext, Classical.choice, Quot.sound]
'Verif.Meta.C96_violated' depends on axioms: [propext, Classical.choice, Quot.sound]
'Verif.Wds.C97_next' depends on axioms: [propext, Quot.sound]
'Verif.Wds.C97_slice' depends on axioms: [propext, Classical.choice, Quot.sound]
'Verif.Wds.C97_all' depends on axioms: [propext, Classical.choice, Quot.sound]
'Verif.Wds.C97_restore' depends on axioms: [propext, Classical.choice, Quot.sound]
'Verif.Code.C98_string' depends on axioms: [propext, Quot.sound]
'Verif.Code.C98_function' depends on axioms: [propext, Classical.choice, Quot.sound]
'Verif.Code.C98_once' depends on axioms: [propext, Quot.sound]
'Verif.Code.C98_same' depends on axioms: [propext, Quot.sound]
'Verif.Code.C98_relative' depends on axioms: [propext, Classical.choice, Quot.sound]
'Verif.Code.C98_absolute' depends on axioms: [propext, Classical.choice, Quot.sound]
'Verif.Code.C98_dataset' depends on axioms: [propext, Classical.choice, Quot.sound]
'Verif.Code.C98_violated_cwd' depends on axioms: [propext, Quot.sound]
'Verif.Code.C98_violated_protocol' depends on axioms: [propext, Classical.choice, Quot.sound]
'Verif.Debug.C99_heatmap_partial' depends on axioms: [propext, Classical.choice, Quot.sound]
'Verif.Debug.C99_analyze_partial' depends on axioms: [propext, Classical.choice, Quot.sound]
'Verif.Debug.C99_numbers' depends on axioms: [propext, Classical.choice, Quot.sound]
'Verif.Debug.C99_written' depends on axioms: [propext, Quot.sound]
'Verif.Debug.C99_violated_odd' depends on axioms: [propext, Quot.sound]
'Verif.Debug.C99_violated_one' depends on axioms: [propext, Quot.sound]
'Verif.Debug.C99_violated_skip' depends on axioms: [propext, Quot.sound]
'Verif.Debug.C99_violated_loading' depends on axioms: [propext, Quot.sound]
