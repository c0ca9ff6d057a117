{
 "claims": [
  {
   "property": "C01",
   "status": "proved",
   "theorems": [
    "Verif.Depend.fresh_reads",
    "Verif.Depend.fresh_reads_covered"
   ],
   "note": "Refinement of the cached state machine to a cache-free specification, all histories, all networks with exact (or merely covering) declarations."
  },
  {
   "property": "C02",
   "status": "partial",
   "theorems": [
    "Verif.Depend.core_fresh_partial",
    "Verif.Depend.repaired_fresh",
    "Verif.Depend.repaired_same_reads",
    "Verif.Depend.pi_not_fresh",
    "Verif.Depend.fpath_stale",
    "Verif.Depend.nm_factor_stale",
    "Verif.Depend.extras_stale",
    "Verif.Depend.fsc_stale",
    "Verif.Depend.virsc_stale",
    "Verif.Depend.qdt_stale",
    "Verif.Depend.qdt_on_m_stale",
    "Verif.Depend.econs_stale"
   ],
   "note": "The property is false of the code: eight declarations are faulty, each with a proved stale history. Freshness is proved for the 67 quantities not involving them, and for all 86 once the eight declarations are corrected."
  },
  {
   "property": "C03",
   "status": "proved",
   "theorems": [
    "Verif.Depend.synchronised",
    "Verif.Depend.representations_agree"
   ],
   "note": "All histories, all groups, all conversions."
  },
  {
   "property": "C04",
   "status": "proved",
   "theorems": [
    "Verif.Depend.evaluated_once_per_change",
    "Verif.Depend.reads_evaluate_at_most_once",
    "Verif.Depend.second_read_free"
   ],
   "note": "Ghost evaluation counters."
  },
  {
   "property": "C05",
   "status": "partial",
   "theorems": [
    "Verif.Depend.rejected_write_corrupts",
    "Verif.Depend.rejected_write_is_read",
    "Verif.Depend.rejected_write_harmless_partial"
   ],
   "note": "False of the code for up-to-date quantities (negation proved); proved for out-of-date ones."
  },
  {
   "property": "C51",
   "status": "partial",
   "theorems": [
    "Verif.Depend.view_makes_stale",
    "Verif.Depend.view_harmless_partial",
    "Verif.Depend.view_after_read"
   ],
   "note": "False of the code for out-of-date arrays (negation proved); proved for up-to-date ones."
  },
  {
   "property": "C06",
   "status": "proved",
   "theorems": [
    "Verif.Wire.recvall_exact",
    "Verif.Wire.recvall_disconnected",
    "Verif.Wire.recvall_never_wrong",
    "Verif.Wire.recvall_cut_independent",
    "Verif.Wire.driver_recv_exact",
    "Verif.Wire.driver_recv_closed",
    "Verif.Wire.driver_recv_timeout_corrupts",
    "Verif.Wire.positions_sound"
   ],
   "note": "recvall, the loops of the bulk path (same loop) and the driver's recv_data. The driver's loop is exact only on sockets without timeouts, which is how the driver creates them; driver_recv_timeout_corrupts shows what would happen otherwise."
  },
  {
   "property": "C07",
   "status": "proved",
   "theorems": [
    "Verif.Wire.bulk_roundtrip",
    "Verif.Wire.bulk_truncated",
    "Verif.Wire.getforce_roundtrip",
    "Verif.Wire.batch_roundtrip",
    "Verif.Wire.exchanges_in_sync",
    "Verif.Wire.positions_roundtrip",
    "Verif.Wire.batch_positions_roundtrip",
    "Verif.Wire.bulk_sound",
    "Verif.Wire.bulk_wrong_count",
    "Verif.Wire.batch_sound",
    "Verif.Wire.batch_wrong_count",
    "Verif.Wire.positions_sound"
   ],
   "note": "float64 values are identified with their bit patterns; sends are complete (sendall)."
  },
  {
   "property": "C08",
   "status": "partial",
   "theorems": [
    "Verif.Wire.extras_nonascii_desync",
    "Verif.Wire.extras_decode_error",
    "Verif.Wire.extras_next_exchange_lost",
    "Verif.Wire.extras_ascii_partial"
   ],
   "note": "False of the code: negation proved for every non-ASCII string, plus witnesses; the ASCII case is proved."
  },
  {
   "property": "C52",
   "status": "partial",
   "theorems": [
    "Verif.Wire.init_ascii_partial",
    "Verif.Wire.init_nonascii_desync",
    "Verif.Wire.init_nonascii_witness"
   ],
   "note": "False of the code for every non-ASCII string (proved); the ASCII case is proved."
  },
  {
   "property": "C53",
   "status": "partial",
   "theorems": [
    "Verif.Wire.header_cut_hangs",
    "Verif.Wire.status_cut_disconnects",
    "Verif.Wire.eof_hangs",
    "Verif.Wire.header_whole_partial",
    "Verif.Wire.status_whole_partial"
   ],
   "note": "False of the code (witnesses proved); holds when the header is delivered in one piece."
  },
  {
   "property": "C09",
   "status": "proved",
   "theorems": [
    "Verif.Pool.no_request_lost",
    "Verif.Pool.requests_stay",
    "Verif.Pool.death_requeues",
    "Verif.Pool.reply_answers",
    "Verif.Pool.never_crashes"
   ],
   "note": "Consolidated mode, every history of queue/release/update/dispatch/collect/select error. Crash freedom needs well-formed replies and no failing select (see C54). Queue and release interleave between scheduler phases, not inside one."
  },
  {
   "property": "C10",
   "status": "partial",
   "theorems": [
    "Verif.Threaded.abandoned_forever",
    "Verif.Threaded.timeout_abandons",
    "Verif.Threaded.timeout_abandons_any",
    "Verif.Threaded.threaded_no_loss_partial",
    "Verif.Threaded.threaded_one_job"
   ],
   "note": "False of the code: a timed-out request stays marked as running forever (proved for every continuation). Without timeouts no request is lost (proved)."
  },
  {
   "property": "C11",
   "status": "proved",
   "theorems": [
    "Verif.Pool.one_job_per_client",
    "Verif.Pool.reply_to_the_right_request",
    "Verif.Pool.results_are_own",
    "Verif.Pool.only_idle_clients"
   ],
   "note": "All histories, single and batched."
  },
  {
   "property": "C12",
   "status": "partial",
   "theorems": [
    "Verif.Pool.lock_respected",
    "Verif.Pool.waiting_request_dispatched",
    "Verif.Pool.own_replica_first",
    "Verif.Pool.new_clients_before_others",
    "Verif.Pool.settled_clients_last",
    "Verif.Pool.lock_starves",
    "Verif.Pool.failed_send_delays"
   ],
   "note": "Lock exclusivity, work conservation (auto, any) and preference order proved; the last clause fails in lock mode (lock_starves: a stale request list starves an eligible request) and preference order assumes successful sends (failed_send_delays)."
  },
  {
   "property": "C54",
   "status": "partial",
   "theorems": [
    "Verif.Pool.malformed_reply_kills",
    "Verif.Pool.malformed_reply_reachable",
    "Verif.Pool.select_error_kills",
    "Verif.Pool.disconnect_handled_partial"
   ],
   "note": "False of the code (proved for every state); a plain disconnection is handled."
  },
  {
   "property": "C55",
   "status": "partial",
   "theorems": [
    "Verif.Pool.dead_client_accepted",
    "Verif.Pool.threaded_loop_never_ends",
    "Verif.Pool.vanished_client_stalls",
    "Verif.Pool.consolidated_rounds_bounded_partial"
   ],
   "note": "False in threaded mode (infinite loop proved); holds in consolidated mode."
  },
  {
   "property": "C13",
   "status": "partial",
   "theorems": [
    "Verif.Driver.flags",
    "Verif.Driver.status_truthful",
    "Verif.Driver.forces_of_last_positions_partial",
    "Verif.Driver.resends",
    "Verif.Driver.once_if_pending_partial",
    "Verif.Driver.reinit_stale"
   ],
   "note": "Status replies proved truthful for every history. Forces are those of the last positions when initialisation precedes positions (as i-PI does), stale otherwise (reinit_stale); forces are resent without new positions (resends)."
  },
  {
   "property": "C14",
   "status": "proved",
   "theorems": [
    "Verif.Mpi.work_roundtrip",
    "Verif.Mpi.result_roundtrip",
    "Verif.Mpi.mixed_sizes_fail"
   ],
   "note": "For batches of equal sizes, which is what the code requires; mixed_sizes_fail records that a mixed batch is rejected, never mispacked."
  },
  {
   "property": "C15",
   "status": "proved",
   "theorems": [
    "Verif.Mpi.assign_several",
    "Verif.Mpi.assign_single",
    "Verif.Mpi.assign_partition"
   ],
   "note": "Every number of ranks and every configuration of roots."
  },
  {
   "property": "C16",
   "status": "partial",
   "theorems": [
    "Verif.MpiPool.mpi_no_loss",
    "Verif.MpiPool.mpi_forward",
    "Verif.MpiPool.mpi_no_idle",
    "Verif.MpiPool.mpi_never_crashes_partial",
    "Verif.MpiPool.mixed_sizes_crash"
   ],
   "note": "No request is lost and every slot is used; the polling thread dies when requests of different sizes are batched (witness)."
  },
  {
   "property": "C17",
   "status": "partial",
   "theorems": [
    "Verif.Active.selection_partial",
    "Verif.Active.whole_system",
    "Verif.Active.permuted_selection_wrong",
    "Verif.Active.invalid_selection_accepted",
    "Verif.Active.second_system_truncated",
    "Verif.Active.forces_sized"
   ],
   "note": "Proved for increasing, valid selections; false of the code for permuted selections, out-of-range selections and a second system of different size (witnesses)."
  },
  {
   "property": "C56",
   "status": "partial",
   "theorems": [
    "Verif.Driver.batch_announced",
    "Verif.Driver.no_batch",
    "Verif.Driver.user_batch_desync"
   ],
   "note": "With batching: proved for every user string. Without: holds unless the user's string itself contains a batch_size entry (witness)."
  },
  {
   "property": "C57",
   "status": "partial",
   "theorems": [
    "Verif.Driver.exit_ends_partial",
    "Verif.Driver.closed_connection_spins"
   ],
   "note": "EXIT ends the loop; a closed connection makes it spin forever (proved)."
  },
  {
   "property": "C18",
   "status": "partial",
   "theorems": [
    "Verif.Offset.direct_once",
    "Verif.Offset.eval_bead_once",
    "Verif.Offset.committee_member_misses_offset",
    "Verif.Offset.committee_member_wrong",
    "Verif.Offset.committee_member_partial",
    "Verif.Offset.cavph_offset",
    "Verif.Offset.cavph_twice"
   ],
   "note": "Proved for direct, socket and MPI force fields and for FFEval seen by a replica; false for an FFEval member of a committee (offset not subtracted) and for the cavity force field (subtracted twice)."
  },
  {
   "property": "C19",
   "status": "partial",
   "theorems": [
    "Verif.Direct.evaluated_at_most_once",
    "Verif.Direct.threaded_all_done",
    "Verif.Direct.not_threaded_hangs",
    "Verif.Direct.not_threaded_partial"
   ],
   "note": "Threaded mode proved for every history; without threads an incomplete batch is never evaluated (proved)."
  },
  {
   "property": "C20",
   "status": "proved",
   "theorems": [
    "Verif.Direct.requests_exact",
    "Verif.Direct.release_twice"
   ],
   "note": "Every history of queue, poll and release."
  },
  {
   "property": "C21",
   "status": "proved",
   "theorems": [
    "Verif.Committee.plain_mean",
    "Verif.Committee.json_mean",
    "Verif.Committee.rescale_mean",
    "Verif.Committee.rescale_var",
    "Verif.Committee.uncertainty_scaled",
    "Verif.Committee.baseline_value",
    "Verif.Committee.baseline_weight",
    "Verif.Committee.plain_force_is_gradient",
    "Verif.Committee.baseline_force_is_gradient"
   ],
   "note": "Real-number arithmetic; any number of members."
  },
  {
   "property": "C22",
   "status": "partial",
   "theorems": [
    "Verif.Softexit.callbacks_once_partial",
    "Verif.Softexit.callbacks_complete_partial",
    "Verif.Softexit.callbacks_run_twice",
    "Verif.Softexit.second_signal_aborts",
    "Verif.Softexit.fatal_callback_stops",
    "Verif.Softexit.callbacks_once_race_partial"
   ],
   "note": "Holds for one exit request and callbacks raising only RuntimeError; two concurrent requests run callbacks twice, a second signal or another exception aborts the rest (witnesses)."
  },
  {
   "property": "C58",
   "status": "partial",
   "theorems": [
    "Verif.Direct.rotation_request_lost",
    "Verif.Direct.rotation_request_answered_partial",
    "Verif.Direct.pass_skips",
    "Verif.Direct.pass_progress",
    "Verif.Direct.passes_answer_all"
   ],
   "note": "False of the code (lost request witness); proved when the poll does not interleave with queueing."
  },
  {
   "property": "C59",
   "status": "partial",
   "theorems": [
    "Verif.Committee.default_weights_partial",
    "Verif.Committee.weights_ignored",
    "Verif.Committee.weights_wrong"
   ],
   "note": "False of the code: weights are stored and never used."
  },
  {
   "property": "C60",
   "status": "partial",
   "theorems": [
    "Verif.Committee.extras_last_only",
    "Verif.Committee.extras_dropped",
    "Verif.Committee.extras_single_partial"
   ],
   "note": "False of the code for more than one member with extras."
  },
  {
   "property": "C61",
   "status": "proved",
   "theorems": [
    "Verif.Committee.equivariant_unchanged",
    "Verif.Committee.average_force_is_gradient"
   ],
   "note": "Any finite set of rotations; derivative along every line."
  },
  {
   "property": "C23",
   "status": "partial",
   "theorems": [
    "Verif.Run.soft_restarts_partial",
    "Verif.Run.hard_kills_partial",
    "Verif.Run.repetition_bounded",
    "Verif.Run.restart_adds_later_rows",
    "Verif.Run.kill_loses_buffered_rows",
    "Verif.Run.kill_loses_row_after_checkpoint",
    "Verif.Run.kill_during_checkpoint",
    "Verif.Run.finished_step_not_printed",
    "Verif.Run.exit_in_store_loses_row",
    "Verif.Run.exit_thread_loses_row"
   ],
   "note": "Proved for any number of soft interruptions served by the main thread outside store(), and for any number of hard kills when outputs flush every row and the checkpoint is the last output. Otherwise false (witnesses)."
  },
  {
   "property": "C24",
   "status": "partial",
   "theorems": [
    "Verif.Run.restart_rows_exact",
    "Verif.Run.fresh_rows_exact",
    "Verif.Columns.columns_right",
    "Verif.Columns.table_honest_partial",
    "Verif.Columns.path_columns_wrong",
    "Verif.Columns.path_shifts_columns",
    "Verif.Columns.negative_atom_wrong",
    "Verif.Columns.beads_written"
   ],
   "note": "Rows exact for every stride and start. Columns right for the whole property table except atom_x_path and atom_f_path and atom index -1 (witnesses)."
  },
  {
   "property": "C48",
   "status": "partial",
   "theorems": [
    "Verif.Run.exit_in_main_partial",
    "Verif.Run.exit_after_step",
    "Verif.Run.rollback_bounded",
    "Verif.Run.exit_thread_partial",
    "Verif.Run.exit_in_store_wrong",
    "Verif.Run.exit_in_store_loses_row",
    "Verif.Run.exit_thread_loses_row",
    "Verif.Run.exit_thread_mislabels",
    "Verif.Run.exit_thread_saves_half_step"
   ],
   "note": "Right for exits served by the main thread outside store(), and by the monitor thread while the main thread is inside its loop; otherwise false (witnesses)."
  },
  {
   "property": "C25",
   "status": "proved",
   "theorems": [
    "Verif.Backup.nothing_destroyed",
    "Verif.Backup.search_ends",
    "Verif.Backup.opened_empty",
    "Verif.Backup.plain_name_opens",
    "Verif.Backup.subdirectory_fails"
   ],
   "note": "Every file system and name; the opening itself fails for files in subdirectories (subdirectory_fails)."
  },
  {
   "property": "C26",
   "status": "partial",
   "theorems": [
    "Verif.Values.bool_round_trip",
    "Verif.Values.int_round_trip",
    "Verif.Values.string_round_trip",
    "Verif.Values.float_text_round_trip",
    "Verif.Values.tuple_round_trip",
    "Verif.Values.array_round_trip",
    "Verif.Values.int_array_round_trip",
    "Verif.Values.bool_array_round_trip",
    "Verif.Values.float_array_round_trip",
    "Verif.Values.string_array_partial",
    "Verif.Values.quote_lost",
    "Verif.Values.trailing_empty_lost",
    "Verif.Values.comma_splits",
    "Verif.Values.bracket_ends",
    "Verif.Values.value_stable",
    "Verif.Values.dict_round_trip",
    "Verif.Values.dict_stable",
    "Verif.Values.number_string_changes",
    "Verif.Values.comma_string_fails",
    "Verif.Values.second_write_same",
    "Verif.Values.all_writes_same",
    "Verif.Values.first_write_error",
    "Verif.Values.restart_not_exact",
    "Verif.Values.nearest_range",
    "Verif.Values.nearest_stable"
   ],
   "note": "All types round trip for plain contents, every length; false of the code for strings with quotes, commas, brackets, trailing empty strings and number-like strings in dictionaries (witnesses)."
  },
  {
   "property": "C27",
   "status": "partial",
   "theorems": [
    "Verif.Xml.xml_round_trip",
    "Verif.Xml.input_round_trip",
    "Verif.Xml.second_write_same",
    "Verif.Xml.accepted_iff",
    "Verif.Xml.unbalanced_rejected",
    "Verif.Xml.quote_breaks",
    "Verif.Xml.less_than_breaks"
   ],
   "note": "Every tree of plain names and texts; the writer escapes nothing, so quotes in attributes and '<' in texts break the file (witnesses)."
  },
  {
   "property": "C28",
   "status": "proved",
   "theorems": [
    "Verif.Inp.default_omission_harmless",
    "Verif.Inp.unknown_tag_rejected",
    "Verif.Inp.unknown_attribute_rejected",
    "Verif.Inp.missing_field_rejected",
    "Verif.Inp.missing_attribute_rejected",
    "Verif.Inp.duplicate_last_wins"
   ],
   "note": "Every class declaration with distinct names and every contents whose single values read back; through the XML text."
  },
  {
   "property": "C29",
   "status": "partial",
   "theorems": [
    "Verif.Json.json_round_trip",
    "Verif.Json.document_round_trip",
    "Verif.Json.conversion_preserves",
    "Verif.Json.parse_tidy",
    "Verif.Json.json_same_contents",
    "Verif.Json.json_same_simulation_partial",
    "Verif.Json.order_lost",
    "Verif.Json.value_child_lost",
    "Verif.Json.contents_reordered",
    "Verif.Json.document_wrapped",
    "Verif.Json.document_unwrapped"
   ],
   "note": "Same simulation when no level mixes two kinds of repeated sections; otherwise sections of different tags are reordered (witness). Trees of python objects; the JSON text itself is C49's loads_dumps."
  },
  {
   "property": "C49",
   "status": "partial",
   "theorems": [
    "Verif.JsonText.extra_accepted_iff",
    "Verif.JsonText.extra_contents",
    "Verif.JsonText.blank_extra",
    "Verif.JsonText.plain_text_extra",
    "Verif.JsonText.dumped_extra",
    "Verif.JsonText.loads_dumps",
    "Verif.JsonText.number_extra_fails",
    "Verif.JsonText.list_extra_fails",
    "Verif.JsonText.raw_field_fails",
    "Verif.JsonText.some_extra_fails"
   ],
   "note": "JSON objects, other texts and blanks proved; JSON that is not an object, or has a field raw, raises (witnesses)."
  },
  {
   "property": "C50",
   "status": "partial",
   "theorems": [
    "Verif.Keys.key_parsed",
    "Verif.Keys.key_parsed_swapped",
    "Verif.Keys.getkey_parsed",
    "Verif.Keys.open_arguments_rejected",
    "Verif.Keys.closed_before_opened_rejected",
    "Verif.Keys.open_unit_in_name",
    "Verif.Keys.stray_brace_accepted",
    "Verif.Keys.trailing_text_ignored"
   ],
   "note": "Well-formed keys proved; some malformed keys are accepted (witnesses)."
  },
  {
   "property": "C30",
   "status": "proved",
   "theorems": [
    "Verif.Units.unit_value",
    "Verif.Units.decomposition_unique",
    "Verif.Units.accepted_form",
    "Verif.Units.round_trip",
    "Verif.Units.accepted_iff",
    "Verif.Units.unknown_family",
    "Verif.Units.unknown_unit",
    "Verif.Units.trailing_blank",
    "Verif.Units.after_line_ignored",
    "Verif.Units.split_prefix",
    "Verif.Units.split_plain",
    "Verif.Units.units_plain",
    "Verif.Units.prefixes_apart",
    "Verif.Units.prefix_values"
   ],
   "note": "Exact rational arithmetic, every family, prefix and unit of the table; ase units left out. A trailing blank makes the unit unknown and text after a line break is ignored."
  },
  {
   "property": "C31",
   "status": "partial",
   "theorems": [
    "Verif.Traj.xyz_round_trip",
    "Verif.Traj.xyz_exact",
    "Verif.Traj.cut_file",
    "Verif.Traj.cut_frame_accepted",
    "Verif.Traj.bad_count_ends_silently",
    "Verif.Traj.cut_number_wrong",
    "Verif.Traj.empty_frame_fails",
    "Verif.Traj.long_name_cut"
   ],
   "note": "Every number of frames and atoms. False of the code for cut files (last frame padded with zeros or a wrong number), a bad count line ends reading silently, names are cut to four letters, frames without atoms fail (witnesses)."
  },
  {
   "property": "C62",
   "status": "partial",
   "theorems": [
    "Verif.Units.tables_consistent_partial",
    "Verif.Units.pascal_inconsistent",
    "Verif.Units.calorie_is_international"
   ],
   "note": "False of the code for pascal, bar and atmosphere (3e-5 relative, proved); the calorie is the International Table one."
  },
  {
   "property": "C32",
   "status": "partial",
   "theorems": [
    "Verif.Pdb.pdb_round_trip_partial",
    "Verif.Pdb.atom_right_iff",
    "Verif.Pdb.cut_frame_accepted",
    "Verif.Pdb.sign_lost",
    "Verif.Pdb.leading_digit_lost",
    "Verif.Pdb.neighbour_digit_added",
    "Verif.Pdb.negative_neighbour_fails",
    "Verif.Pdb.path_file_fails",
    "Verif.Pdb.many_atoms_name_lost"
   ],
   "note": "False of the code: the reader is one column off. Proved right exactly for coordinates of at most seven characters (above -100, below 1000), any number of frames."
  },
  {
   "property": "C63",
   "status": "partial",
   "theorems": [
    "Verif.TrajUnits.announced_units_found",
    "Verif.TrajUnits.units_used_partial",
    "Verif.TrajUnits.other_units_ignored",
    "Verif.TrajUnits.unrecognised_units",
    "Verif.TrajUnits.forces_wrong",
    "Verif.TrajUnits.explicit_units_used",
    "Verif.TrajUnits.pdb_positions_found",
    "Verif.TrajUnits.pdb_centroid_wrong",
    "Verif.TrajUnits.dimension_keys"
   ],
   "note": "Proved for every quantity and all unit names of letters and underscores; false for ev/ang, m/s, j/mol, cal/mol (read as atomic units) and for PDB files of quantities other than positions (read as angstrom)."
  },
  {
   "property": "C64",
   "status": "partial",
   "theorems": [
    "Verif.Binary.one_frame_partial",
    "Verif.Binary.more_frames_lost",
    "Verif.Binary.more_frames_wrong",
    "Verif.Binary.at_most_one",
    "Verif.Binary.two_frames_nothing"
   ],
   "note": "One frame reads back; false of the code for more than one (proved: at most one frame from any file)."
  },
  {
   "property": "C33",
   "status": "partial",
   "theorems": [
    "Verif.Prng.saved_text_exact",
    "Verif.Prng.restart_state",
    "Verif.Prng.restart_fewer",
    "Verif.Prng.restart_more",
    "Verif.Prng.replay_partial",
    "Verif.Prng.replay_one_thread",
    "Verif.Prng.fresh_numbers_partial",
    "Verif.Prng.copy_filled",
    "Verif.Prng.gens_after",
    "Verif.Prng.threaded_returns_junk",
    "Verif.Prng.more_threads_not_reproducible"
   ],
   "note": "One thread, or below 100 entries per thread: proved. Otherwise false of the code: numbers are drawn into a copy and the caller gets uninitialised memory; a restart with more threads depends on the clock."
  },
  {
   "property": "C34",
   "status": "proved",
   "theorems": [
    "Verif.MtsForces.levels_sum_force",
    "Verif.MtsForces.levels_sum_vir",
    "Verif.MtsForces.total_force",
    "Verif.MtsForces.total_vir",
    "Verif.MtsForces.level_force",
    "Verif.MtsForces.level_vir",
    "Verif.MtsForces.level_beyond",
    "Verif.MtsForces.zero_weight_force",
    "Verif.MtsForces.zero_weight_not_queued",
    "Verif.MtsForces.used_watched",
    "Verif.MtsForces.unwatched_unused",
    "Verif.MtsForces.mixed_levels_refused",
    "Verif.MtsForces.empty_weights_fail",
    "Verif.MtsForces.empty_weights_zero_weight_queued",
    "Verif.MtsForces.reported_sum_partial",
    "Verif.MtsForces.reported_misses_level_weights"
   ],
   "note": "Exact arithmetic over any field. An empty list of level weights counts as no level, and its outer level then raises IndexError (witness); the per-component report leaves out the level weights (witness)."
  },
  {
   "property": "C36",
   "status": "proved",
   "theorems": [
    "Verif.Nm.nm_orthogonal",
    "Verif.Nm.o_nm_orthogonal",
    "Verif.Nm.nm2b_b2nm",
    "Verif.Nm.b2nm_nm2b",
    "Verif.Nm.scalar_product_kept",
    "Verif.Nm.ring_spring_diagonal",
    "Verif.Nm.chain_spring_diagonal",
    "Verif.Nm.ring_eigen",
    "Verif.Nm.chain_eigen",
    "Verif.Nm.fft_b2nm",
    "Verif.Nm.fft_nm2b",
    "Verif.Nm.centroid_mode"
   ],
   "note": "Exact real numbers, every number of beads; numpy's rfft and irfft are taken by their documented definition."
  },
  {
   "property": "C35",
   "status": "partial",
   "theorems": [
    "Verif.Contract.same_beads",
    "Verif.Contract.centroid_kept",
    "Verif.Contract.mean_force_kept",
    "Verif.Contract.total_potential",
    "Verif.Contract.contract_expand_partial",
    "Verif.Contract.expand_contract_partial",
    "Verif.Contract.virtual_work_partial",
    "Verif.Contract.force_is_gradient_partial",
    "Verif.Contract.slow_modes_kept",
    "Verif.Contract.mixed_paths_wrong",
    "Verif.Contract.open_keeps_stiffest"
   ],
   "note": "All closed or all open: proved for all bead numbers. False of the code for systems with both: forces of closed atoms are expanded with the open path matrix (witness). For open paths the contraction keeps the stiffest modes (witness)."
  },
  {
   "property": "C37",
   "status": "proved",
   "theorems": [
    "Verif.Exchange.cycle_energy_is_ring_energy",
    "Verif.Exchange.potential_is_sum_over_cuttings",
    "Verif.Exchange.suffix_is_sum_over_cuttings",
    "Verif.Exchange.backward_eq_forward",
    "Verif.Exchange.shift_irrelevant",
    "Verif.Exchange.free_potential_zero",
    "Verif.Exchange.exchange_potential",
    "Verif.Cut.mem_cuttings",
    "Verif.Cut.nodup_cuttings"
   ],
   "note": "Exact real numbers. The list of cuttings is shown to hold exactly the partitions into consecutive groups, each once."
  },
  {
   "property": "C38",
   "status": "partial",
   "theorems": [
    "Verif.Exchange.connection_probability",
    "Verif.Exchange.prob_nonneg",
    "Verif.Exchange.prob_sum_successors",
    "Verif.Exchange.prob_sum_predecessors",
    "Verif.Exchange.force_is_minus_gradient_partial",
    "Verif.Exchange.total_force_zero_partial",
    "Verif.Exchange.one_bead_fails",
    "Verif.Cut.follows_unique"
   ],
   "note": "Proved for two or more beads. With one bead the code raises IndexError (one_bead_fails), so the property is false there."
  },
  {
   "property": "C65",
   "status": "proved",
   "theorems": [
    "Verif.Exchange.fermionic_sign_is_average",
    "Verif.Exchange.fermionic_sign_le_one",
    "Verif.Exchange.fermionic_sign_one",
    "Verif.Exchange.distinct_probability",
    "Verif.Exchange.longest_probability",
    "Verif.Exchange.probabilities_range",
    "Verif.Exchange.kinetic_estimator"
   ],
   "note": "Exact real numbers."
  },
  {
   "property": "C39",
   "status": "proved",
   "theorems": [
    "Verif.Mts.mtsprop_is_respa",
    "Verif.Mts.halves_mirror",
    "Verif.Mts.step_palindrome",
    "Verif.Mts.step_reversible",
    "Verif.Mts.kick_time",
    "Verif.Mts.drift_time",
    "Verif.Mts.nvt_count",
    "Verif.Mts.thermostat_time"
   ],
   "note": "The sequence of updates equals the textbook nested scheme for every list of multipliers; a kick is the update of the momenta followed by the constraints, a drift the two updates of the positions."
  },
  {
   "property": "C66",
   "status": "partial",
   "theorems": [
    "Verif.Mts.full_step_partial",
    "Verif.Mts.sc_second_part",
    "Verif.Mts.nvtcc_obabo_partial",
    "Verif.Mts.nvtcc_baoab_thermostat",
    "Verif.Mts.nvtcc_drift",
    "Verif.Mts.nvtcc_not_full"
   ],
   "note": "Proved for all ensembles but nvt-cc, where it is false: its step ignores the splitting (thermostat for 2 dt with baoab) and the multipliers (positions for dt/n)."
  },
  {
   "property": "C42",
   "status": "proved",
   "theorems": [
    "Verif.Prop.det_one",
    "Verif.Prop.energy_kept",
    "Verif.Prop.exact_add",
    "Verif.Prop.inverse",
    "Verif.Prop.flip_step",
    "Verif.Prop.exact_solves",
    "Verif.Prop.free_energy",
    "Verif.Prop.free_inverse",
    "Verif.Prop.free_reversible",
    "Verif.Prop.free_add",
    "Verif.Prop.drift_order",
    "Verif.Prop.cayley_not_add",
    "Verif.Prop.centroid_free"
   ],
   "note": "Exact real numbers, positive masses, mass factors and frequencies of the non-centroid modes. Also proved: the exact propagator solves Hamilton's equations at every time, the whole ring polymer step is time reversible and commutes with the centroid drift."
  },
  {
   "property": "C67",
   "status": "partial",
   "theorems": [
    "Verif.Prop.true_energy_kept",
    "Verif.Prop.vspring_eq",
    "Verif.Prop.kin_eq",
    "Verif.Prop.reported_energy_partial",
    "Verif.Prop.open_energy_lost",
    "Verif.Prop.reported_energy_fails"
   ],
   "note": "True for closed paths and for open paths without mass scaling. False for open paths with scaled masses: the reported kinetic energy uses the mass factors of closed paths (open_energy_lost)."
  },
  {
   "property": "C68",
   "status": "partial",
   "theorems": [
    "Verif.Prop.exact_follows",
    "Verif.Prop.cayley_follows_partial",
    "Verif.Prop.cayley_rate",
    "Verif.Prop.cayley_not_follows"
   ],
   "note": "True for the exact propagator and for the Cayley propagator without mass scaling; false for the Cayley propagator with every mass factor other than one (cayley_not_follows)."
  },
  {
   "property": "C41",
   "status": "partial",
   "theorems": [
    "Verif.Hw.weights_frozen",
    "Verif.Hw.weights_used_partial",
    "Verif.Hw.weights_not_used",
    "Verif.Hw.scaled_forces_never_act",
    "Verif.Hw.unit_weights_no_kick",
    "Verif.Hw.scaled_force_missing",
    "Verif.Hw.explicit_bias_off"
   ],
   "note": "False of the code: the weights are a plain attribute, so new weights never reach the cached scaling (weights_not_used), and scaled forces never act on the dynamics (scaled_forces_never_act). Proved: the weights given before the first evaluation are used."
  },
  {
   "property": "C40",
   "status": "proved",
   "theorems": [
    "Verif.Remd.rejected_restores",
    "Verif.Remd.accepted_spec",
    "Verif.Remd.exchanged_exchanged",
    "Verif.Remd.accepted_iff",
    "Verif.Remd.detailed_balance",
    "Verif.Remd.rescale_volume",
    "Verif.Remd.kinetic_kept",
    "Verif.Remd.barostat_kept",
    "Verif.Remd.step_permuted",
    "Verif.Remd.index_permutation"
   ],
   "note": "Exact real numbers; positive temperatures. Stresses closer than 1e-10 are not exchanged (accepted_spec says so); reference cells are exchanged when both replicas have one."
  },
  {
   "property": "C69",
   "status": "partial",
   "theorems": [
    "Verif.Remd.gle_ratio",
    "Verif.Remd.gle_kept_partial",
    "Verif.Remd.gle_not_kept"
   ],
   "note": "False of the code: the auxiliary momenta are scaled with the ratio of the temperatures instead of its square root. Proved for equal temperatures."
  },
  {
   "property": "C43",
   "status": "partial",
   "theorems": [
    "Verif.Pcon.com_zero",
    "Verif.Pcon.com_idem",
    "Verif.Pcon.com_econs",
    "Verif.Pcon.fixed_zero",
    "Verif.Pcon.fixed_idem",
    "Verif.Pcon.fixed_econs_partial",
    "Verif.Pcon.pconstraints_idem",
    "Verif.Pcon.pconstraints_econs_partial",
    "Verif.Pcon.pconstraints_zero",
    "Verif.Pcon.centroid_zero",
    "Verif.Pcon.centroid_econs",
    "Verif.Pcon.fixed_twice_fails",
    "Verif.Pcon.fixed_open_fails"
   ],
   "note": "Enforcement and idempotence proved for all cases. The energy balance is proved for a fixed centre of mass, constrained centroids and fixed degrees of freedom listed once; it is false when one is listed twice (fixed_twice_fails) and for open paths with scaled masses (fixed_open_fails)."
  },
  {
   "property": "C44",
   "status": "proved",
   "theorems": [
    "Verif.Cell.invUt_mul",
    "Verif.Cell.detUt_det",
    "Verif.Cell.wrap_image",
    "Verif.Cell.wrap_inside",
    "Verif.Cell.wrap_wrap",
    "Verif.Cell.wrap_of_image",
    "Verif.Cell.arrayPbc_eq",
    "Verif.Cell.cell_wrap"
   ],
   "note": "Exact real numbers, rounding half to even as python and numpy do."
  },
  {
   "property": "C70",
   "status": "partial",
   "theorems": [
    "Verif.Cell.min_is_image",
    "Verif.Cell.min_orthorhombic",
    "Verif.Cell.min_within_half_width",
    "Verif.Cell.min_is_shortest",
    "Verif.Cell.min_not_shortest"
   ],
   "note": "Proved for orthorhombic cells and, in triclinic cells, for half the documented cut-off; false for the documented one (min_not_shortest)."
  },
  {
   "property": "C45",
   "status": "partial",
   "theorems": [
    "Verif.Extras.component_altered",
    "Verif.Extras.component_altered_witness",
    "Verif.Extras.total_altered_witness",
    "Verif.Extras.reads_harmless_partial",
    "Verif.Extras.total_twice",
    "Verif.Extras.total_raw"
   ],
   "note": "False of the code whenever two components return raw strings: the total is appended to the list of the first one. Proved when at most one component does."
  },
  {
   "property": "C46",
   "status": "partial",
   "theorems": [
    "Verif.Bead.reads_current_partial",
    "Verif.Bead.queued_then_moved",
    "Verif.Bead.queued_then_moved_witness",
    "Verif.Bead.right_after_next_move"
   ],
   "note": "False of the code: a pending request is not checked against the positions. Proved for histories in which a queued evaluation is read before the positions change."
  },
  {
   "property": "C47",
   "status": "proved",
   "theorems": [
    "Verif.Thermo.langevin_heat",
    "Verif.Thermo.gle_heat",
    "Verif.Thermo.cl_heat",
    "Verif.Thermo.svr_heat",
    "Verif.Thermo.svr_heat_et",
    "Verif.Thermo.ffl_heat",
    "Verif.Thermo.ffl_defined",
    "Verif.Thermo.ffl_at_rest",
    "Verif.Thermo.pileL_heat",
    "Verif.Thermo.pileG_heat",
    "Verif.Thermo.multi_heat",
    "Verif.Thermo.split_sum",
    "Verif.Thermo.langevin_identity",
    "Verif.Thermo.svr_identity",
    "Verif.Thermo.cl_identity",
    "Verif.Thermo.expT_near",
    "Verif.Thermo.langevin_other_mass",
    "Verif.Thermo.fluctuation_dissipation",
    "Verif.Thermo.langevin_canonical",
    "Verif.Thermo.inherent_effect",
    "Verif.Thermo.cl_canonical",
    "Verif.Thermo.pileL_canonical",
    "Verif.Thermo.svr_canonical_on",
    "Verif.Thermo.svr_canonical",
    "Verif.Thermo.ffl_ae",
    "Verif.Thermo.ffl_canonical",
    "Verif.Thermo.gle_stationary_iff",
    "Verif.Thermo.gle_stable",
    "Verif.Thermo.gle_momenta",
    "Verif.Thermo.gle_canonical",
    "Verif.Thermo.gle_heating",
    "Verif.Thermo.svrRg_law",
    "Verif.Thermo.svr_canonical_drawn",
    "Verif.RootHerm.rootOf_iff",
    "Verif.RootHerm.exists_eigh"
   ],
   "note": "Exact real numbers; the random numbers are independent with the distributions numpy documents. Heat balance, identity without friction and invariance of the target distribution proved for Langevin, path-integral Langevin, velocity rescaling, generalised Langevin (if and only if the matrix is positive semidefinite, otherwise the code only warns) and fast-forward Langevin. Recorded disagreements: fast-forward flips give NaN for an atom at rest (ffl_at_rest); thermostats bound to beads use physical masses while the conserved quantity uses scaled ones (langevin_other_mass)."
  },
  {
   "property": "C71",
   "status": "partial",
   "theorems": [
    "Verif.Thermo.svr_mean",
    "Verif.Thermo.svr_canonical_iff",
    "Verif.Thermo.finrank_comSpace",
    "Verif.Thermo.finrank_fixSpace",
    "Verif.Thermo.svr_dof_com",
    "Verif.Thermo.svr_dof_fix",
    "Verif.Thermo.pileG_dof_com",
    "Verif.Thermo.pileG_dof_fix",
    "Verif.Thermo.pileG_com_canonical",
    "Verif.Thermo.nmgleg_com_fails",
    "Verif.Thermo.multi_com_fails",
    "Verif.Thermo.svr_dof_twice"
   ],
   "note": "Proved: the canonical distribution is kept if and only if the count is the dimension of the space of allowed momenta (svr_canonical_iff), and the counts of svr and pile_g are right. False of the code for nm_gle_g with a fixed centre of mass, for pile_g inside a combined thermostat, and when a fixed degree of freedom is listed twice."
  },
  {
   "property": "C72",
   "status": "partial",
   "theorems": [
    "Verif.Baro.iso_step_exact",
    "Verif.Baro.iso_step_group",
    "Verif.Baro.iso_step_reversible",
    "Verif.Baro.iso_volume",
    "Verif.Baro.iso_step_at_rest",
    "Verif.Baro.iso_kick_exact",
    "Verif.Baro.iso_step_preserves",
    "Verif.Baro.iso_kick_preserves"
   ],
   "note": "Exact real numbers. Proved for every piston that moves; for a piston exactly at rest the code divides zero by zero (iso_step_at_rest). The pressure update is the exact joint solution at the innermost level and without bias: at other levels and with bias the coupling terms are left to the splitting."
  },
  {
   "property": "C73",
   "status": "proved",
   "theorems": [
    "Verif.Baro.iso_pstep_rate",
    "Verif.Baro.iso_qcstep_rate",
    "Verif.Baro.iso_conserved"
   ],
   "note": "The rate of change at time zero of the sum over all elementary updates, any number of levels; the thermostats' part is C47."
  },
  {
   "property": "C74",
   "status": "partial",
   "theorems": [
    "Verif.Baro.ani_step_exact_partial",
    "Verif.Baro.ani_step_zero_velocity",
    "Verif.Baro.ani_step_not_exact",
    "Verif.Baro.taylor_terms"
   ],
   "note": "Proved when one diagonal velocity is not zero and the numerical library returns an eigendecomposition. False of the code when the three diagonal velocities are zero: a factor of the time step is missing (ani_step_not_exact)."
  },
  {
   "property": "C75",
   "status": "partial",
   "theorems": [
    "Verif.Baro.ani_rate",
    "Verif.Baro.ani_conserved_partial",
    "Verif.Baro.ani_not_conserved",
    "Verif.Baro.ani_not_conserved_fixed"
   ],
   "note": "ani_rate gives the rate of change in closed form for every mask and external stress; it vanishes for diagonal cell velocities. False of the code for shearing cells (ani_not_conserved) and when off-diagonal entries are held (ani_not_conserved_fixed)."
  },
  {
   "property": "C76",
   "status": "partial",
   "theorems": [
    "Verif.Baro.fixed_diagonal",
    "Verif.Baro.fixed_volume",
    "Verif.Baro.fixed_shape",
    "Verif.Baro.fixed_zero_entry",
    "Verif.Baro.named_entry",
    "Verif.Baro.named_offdiagonal",
    "Verif.Baro.baoab_moves_fixed",
    "Verif.Baro.baoab_moves_volume",
    "Verif.Baro.fixed_entry_scaled",
    "Verif.Baro.fixed_xz_mixed"
   ],
   "note": "Proved for the obabo splitting: diagonal entries, the volume, rectangular shape, and zero xy and yz. False of the code for the baoab splitting (baoab_moves_fixed, baoab_moves_volume), for non-zero off-diagonal entries (fixed_entry_scaled) and for xz held alone (fixed_xz_mixed)."
  },
  {
   "property": "C77",
   "status": "partial",
   "theorems": [
    "Verif.Swap.pick_uniform",
    "Verif.Swap.accept_probability",
    "Verif.Swap.metropolis",
    "Verif.Swap.exchange_spec",
    "Verif.Swap.exchange_kin",
    "Verif.Swap.exchange_spring",
    "Verif.Swap.exchange_twice",
    "Verif.Swap.momenta_volume",
    "Verif.Swap.attempt_spec",
    "Verif.Swap.step_econs",
    "Verif.Swap.exchange_balanced",
    "Verif.Swap.swapped_twice",
    "Verif.Swap.positions_attempt",
    "Verif.Swap.positions_econs_partial",
    "Verif.Swap.positions_balanced_partial",
    "Verif.Swap.open_not_conserved",
    "Verif.Swap.positions_not_conserved",
    "Verif.Swap.positions_not_balanced"
   ],
   "note": "Isotope exchanges: proved for closed paths; false of the code for open paths, whose spring energy is not the one compared (open_not_conserved). Position swaps: proved when the spring energy does not change (one bead, or equal masses); false of the code otherwise, since springs are left out of the acceptance (positions_not_balanced). The bias is left out of the acceptance of position swaps as well."
  },
  {
   "property": "C78",
   "status": "partial",
   "theorems": [
    "Verif.Swap.pick_ends_partial",
    "Verif.Swap.pick_stuck"
   ],
   "note": "Proved when two different species are present. False of the code otherwise: the search for a partner of another species never ends (pick_stuck)."
  },
  {
   "property": "C79",
   "status": "proved",
   "theorems": [
    "Verif.Ramp.run_value",
    "Verif.Ramp.run_length",
    "Verif.Ramp.run_state",
    "Verif.Ramp.run_restart",
    "Verif.Ramp.value_end",
    "Verif.Ramp.linear_steps",
    "Verif.Ramp.log_steps",
    "Verif.Ramp.value_mono",
    "Verif.Ramp.value_anti",
    "Verif.Ramp.value_between"
   ],
   "note": "Exact real numbers; a logarithmic scale needs positive start and end values, which the code does not check (a zero start divides by zero, a negative ratio gives a complex number)."
  },
  {
   "property": "C80",
   "status": "partial",
   "theorems": [
    "Verif.Replay.restart_same",
    "Verif.Replay.one_frames",
    "Verif.Replay.one_ends_partial",
    "Verif.Replay.one_cut",
    "Verif.Replay.each_frames",
    "Verif.Replay.each_ends",
    "Verif.Replay.wrong_count",
    "Verif.Replay.units_partial",
    "Verif.Replay.units_plain",
    "Verif.Replay.units_twice"
   ],
   "note": "Proved for files with whole blocks and without a units attribute. False of the code for an incomplete last block, which leaves a mixture of two frames (one_cut), and when both the file and the input name the units, or for pdb files with units: positions are converted twice (units_twice)."
  },
  {
   "property": "C81",
   "status": "partial",
   "theorems": [
    "Verif.Metad.deposit_econs",
    "Verif.Metad.step_econs_partial",
    "Verif.Metad.step_right_partial",
    "Verif.Metad.step_untouched",
    "Verif.Metad.step_updates",
    "Verif.Metad.weight_not_conserved",
    "Verif.Metad.beads_not_right",
    "Verif.Metad.no_work_not_right",
    "Verif.Metad.shared_twice"
   ],
   "note": "Proved for weights that add up to one and biases evaluated on the centroid. False of the code for other weights (weight_not_conserved), for biases evaluated on several beads (beads_not_right), and without compute_work (no_work_not_right)."
  },
  {
   "property": "C82",
   "status": "partial",
   "theorems": [
    "Verif.Options.option_reaches",
    "Verif.Options.option_ignored",
    "Verif.Options.all_reach_iff",
    "Verif.Options.tables_wf",
    "Verif.Options.ignored_options",
    "Verif.Options.options_reach_partial",
    "Verif.Options.direct_active_ignored",
    "Verif.Options.committee_active_ignored"
   ],
   "note": "Proved for any table of options, and by evaluation for which of the 50 transcribed blocks it holds. False of the code for ffdirect, ffdmd, ffcommittee and others, which ignore activelist, for ffdebye, ffplumed, ffyaff and ffsgdml, which ignore parameters, and for ffcavphsocket, which ignores max_workers, consolidate_messages and batch_size. The instanton, constrained and driven dynamics blocks and the top-level simulation block are not transcribed."
  },
  {
   "property": "C83",
   "status": "partial",
   "theorems": [
    "Verif.Options.restart_kept",
    "Verif.Options.restart_default",
    "Verif.Options.restart_same_iff",
    "Verif.Options.forgotten_options",
    "Verif.Options.restart_same_partial",
    "Verif.Options.planetary_beads_lost",
    "Verif.Options.planetary_fixed_lost",
    "Verif.Options.bfgs_linesearch_lost",
    "Verif.Options.scp_threshold_lost"
   ],
   "note": "Proved for any table of options, and by evaluation for which blocks it holds. False of the code for minimisers (line search options with bfgs, bfgstrm and lbfgs; previous position, energy and force, which the next step recomputes), planetary (number of beads, fixed atoms), self-consistent phonons (weight threshold and checks), neb and string (number of L-BFGS corrections, not used by the engine), and the Al-6xxx kinetic Monte Carlo (optimizer, number of evaluators)."
  },
  {
   "property": "C84",
   "status": "partial",
   "theorems": [
    "Verif.Pes.IsForce.unique",
    "Verif.Pes.harmonic_force",
    "Verif.Pes.harmonic_batch",
    "Verif.Pes.harmonic_second_ignored",
    "Verif.Pes.harmonic_three",
    "Verif.Pes.well_force_partial",
    "Verif.Pes.well_many_atoms",
    "Verif.Pes.well_barrier",
    "Verif.Pes.friction_well_ignored",
    "Verif.Pes.friction_not_given",
    "Verif.Pes.sfun_deriv",
    "Verif.Pes.friction_eq",
    "Verif.Pes.bath_force",
    "Verif.Pes.morse_force",
    "Verif.Pes.debye_force",
    "Verif.Pes.debye_force_iff",
    "Verif.Pes.spline_force_partial",
    "Verif.Pes.spline_force_wrong",
    "Verif.Pes.sphere_force",
    "Verif.Pes.lj_force",
    "Verif.Pes.dmd_force",
    "Verif.Pes.dmd_virial",
    "Verif.Pes.cavity_force_der",
    "Verif.Pes.cavity_force",
    "Verif.Pes.cavity_coupled",
    "Verif.Pes.energy_conserved"
   ],
   "note": "Proved for harmonic, Morse, spherical and pair Lennard-Jones, bath, driven pair distances (with virial) and cavity potentials, for the double well with one atom and for Debye crystals with a symmetric matrix. False of the code for the spline potential, whose force along x lacks a factor of five (spline_force_wrong); the double well with several atoms returns an array instead of an energy (well_many_atoms); the double well with friction ignores the parameters of the well (friction_well_ignored); the harmonic potential ignores the second of two spring constants; Debye matrices are not checked for symmetry (debye_force_iff). Interfaces to other programs are not modelled."
  },
  {
   "property": "C85",
   "status": "partial",
   "theorems": [
    "Verif.LineMin.bracket_spec",
    "Verif.LineMin.bracket_encloses",
    "Verif.LineMin.bracket_endless",
    "Verif.LineMin.minBrent_endless",
    "Verif.LineMin.search_lowers_partial",
    "Verif.LineMin.best_known_lowers",
    "Verif.LineMin.search_finds",
    "Verif.LineMin.search_finds_all",
    "Verif.LineMin.sd_slope_sign",
    "Verif.LineMin.sd_lowers",
    "Verif.LineMin.sd_frozen",
    "Verif.LineMin.cg_downhill",
    "Verif.LineMin.cg_conjugate",
    "Verif.LineMin.adapt_between",
    "Verif.LineMin.lineMap_deriv",
    "Verif.LineMin.bowl_valley",
    "Verif.LineMin.bowl_lowest",
    "Verif.LineMin.bowl_slope",
    "Verif.LineMin.search_spent_rises"
   ],
   "note": "Exact ordered field. Proved: the bracket, and the minimum of single-valley energies. False of the code: bracketing never ends on an energy that keeps falling (bracket_endless), a search out of passes leaves the atoms at its last trial, which can be higher than the start (search_spent_rises), and a move of length zero freezes the optimiser (sd_frozen)."
  },
  {
   "property": "C86",
   "status": "partial",
   "theorems": [
    "Verif.QN.bfgs_form",
    "Verif.QN.bfgs_symm",
    "Verif.QN.bfgs_secant",
    "Verif.QN.bfgs_posdef",
    "Verif.QN.bfgsHess_posdef",
    "Verif.QN.limit_spec",
    "Verif.QN.minApprox_spec",
    "Verif.QN.backtrack_range",
    "Verif.QN.backtrack_parabola",
    "Verif.QN.backtrack_cubic",
    "Verif.QN.minApprox_ends",
    "Verif.QN.minApprox_small",
    "Verif.QN.minApprox_blind",
    "Verif.QN.bfgs_downhill",
    "Verif.QN.bfgs_lowers_partial",
    "Verif.QN.bfgs_step_secant",
    "Verif.QN.bfgs_small_keeps",
    "Verif.QN.bfgs_step_rises"
   ],
   "note": "Exact real numbers. Proved: positive definiteness, secant condition and downhill directions for every energy and any number of steps; lower energy when the line search ends on sufficient decrease. False of the code for the ending on a small step, which takes the step without looking at the energy (bfgs_step_rises)."
  },
  {
   "property": "C87",
   "status": "partial",
   "theorems": [
    "Verif.QN.twoLoop_bfgs",
    "Verif.QN.twoLoop_secant",
    "Verif.QN.twoLoop_downhill",
    "Verif.QN.scaling_pos",
    "Verif.QN.store_latest",
    "Verif.QN.lbfgsNew_downhill",
    "Verif.QN.lbfgsStep_good",
    "Verif.QN.lbfgs_downhill_partial",
    "Verif.QN.lbfgs_reset_uphill",
    "Verif.QN.lbfgs_small_zero",
    "Verif.QN.lbfgs_frozen",
    "Verif.QN.lbfgs_turns_uphill"
   ],
   "note": "Exact real numbers. Proved: the two loops are BFGS for stored steps of positive curvature, what is stored, and downhill directions on convex energies. False of the code elsewhere: the direction turns uphill in concave regions (lbfgs_turns_uphill), the guard against uphill directions uses the steepest uphill direction (lbfgs_reset_uphill), and after a line search ending on a small step the direction is zero for ever (lbfgs_small_zero, lbfgs_frozen)."
  },
  {
   "property": "C88",
   "status": "partial",
   "theorems": [
    "Verif.QN.expected_predicted",
    "Verif.QN.shifted_best",
    "Verif.QN.shifted_lower",
    "Verif.QN.trmSearch_bounds",
    "Verif.QN.minTrm_lower",
    "Verif.QN.minTrm_best",
    "Verif.QN.minTrm_zero_modes",
    "Verif.QN.minTrm_newton",
    "Verif.QN.trmPass_accept",
    "Verif.QN.trmLoop_lowers_partial",
    "Verif.QN.trmLoop_minTrm",
    "Verif.QN.trm_reject_halves",
    "Verif.QN.newRadius_spec",
    "Verif.QN.trmLoop_endless",
    "Verif.QN.minTrm_zero",
    "Verif.QN.direct_update",
    "Verif.QN.trmUpdate_spec",
    "Verif.QN.trmUpdate_indefinite",
    "Verif.QN.damped_curvature",
    "Verif.QN.damped_posdef",
    "Verif.QN.damped_secant",
    "Verif.QN.dampLimit_spec",
    "Verif.QN.fireRun_ok",
    "Verif.QN.fireMove_spec",
    "Verif.QN.fireVel_down",
    "Verif.QN.fireStep_spec",
    "Verif.QN.fire_unlimited"
   ],
   "note": "Exact real numbers; the eigendecomposition is given. Missing: short trust-radius steps are accepted without looking at the energy. False of the code: the acceptance loop never ends at a stationary point (trmLoop_endless), the trust-radius Hessian becomes indefinite for negative curvature (trmUpdate_indefinite), and the correction of an uphill FIRE velocity is not limited (fire_unlimited)."
  },
  {
   "property": "C89",
   "status": "partial",
   "theorems": [
    "Verif.QN.shift_between",
    "Verif.QN.saddle_direction",
    "Verif.QN.shift_singular",
    "Verif.QN.min_direction",
    "Verif.QN.min_lowest",
    "Verif.QN.min_overlong",
    "Verif.QN.min_newton",
    "Verif.QN.mode_work",
    "Verif.QN.min_downhill",
    "Verif.QN.powell_spec"
   ],
   "note": "Exact real numbers; the eigendecomposition is given. False of the code on the boundary d1 = d0 / 2 < 0 and for a double lowest eigenvalue, where it divides by zero (shift_singular); the limit of the minimising step holds for the lowest mode only (min_overlong)."
  },
  {
   "property": "C90",
   "status": "partial",
   "theorems": [
    "Verif.QN.amax_le",
    "Verif.QN.converges_relaxed",
    "Verif.QN.geop_end",
    "Verif.QN.geop_stays",
    "Verif.QN.geop_notices",
    "Verif.QN.geop_stuck",
    "Verif.QN.lbfgs_never_ends"
   ],
   "note": "Proved for an arbitrary optimiser and forces that are a function of the positions. False of the code: that every run ends; a stuck optimiser with forces above the tolerance runs on for ever (geop_stuck, lbfgs_never_ends)."
  },
  {
   "property": "C91",
   "status": "proved",
   "theorems": [
    "Verif.Phonon.fdRows_eq",
    "Verif.Phonon.fd_restart",
    "Verif.Phonon.fdRun_apply",
    "Verif.Phonon.fd_exact",
    "Verif.Phonon.fd_limit",
    "Verif.Phonon.mode_equation"
   ],
   "note": "Exact real numbers; the eigendecomposition is given; the text of the files is not modelled."
  },
  {
   "property": "C92",
   "status": "proved",
   "theorems": [
    "Verif.Phonon.project_removes",
    "Verif.Phonon.crystal_removes",
    "Verif.Phonon.crystal_sum"
   ],
   "note": "Exact real numbers; positive masses."
  },
  {
   "property": "C93",
   "status": "partial",
   "theorems": [
    "Verif.Phonon.wavenumber_mono",
    "Verif.Phonon.split_down",
    "Verif.Phonon.clean_exact_partial",
    "Verif.Phonon.clean_drops_soft"
   ],
   "note": "Exact real numbers. Proved for spectra without imaginary frequencies between 0.01 and 4 reciprocal centimetres; false of the code with one (clean_drops_soft)."
  },
  {
   "property": "C94",
   "status": "proved",
   "theorems": [
    "Verif.Phonon.hessRow_exact",
    "Verif.Phonon.loop_safe",
    "Verif.Phonon.call_good",
    "Verif.Phonon.history_good",
    "Verif.Phonon.hessian_restart"
   ],
   "note": "Exact real numbers. A file cut in the middle by a kill is not modelled: starting again then raises an exception."
  },
  {
   "property": "C95",
   "status": "partial",
   "theorems": [
    "Verif.Phonon.poly_removes_partial",
    "Verif.Phonon.axes_orthogonal",
    "Verif.Phonon.poly_removes_distinct",
    "Verif.Phonon.poly_linear",
    "Verif.Phonon.poly_oblique",
    "Verif.Phonon.lin_nothing"
   ],
   "note": "Exact real numbers; the eigenvectors of the inertia tensor are given. Proved for atoms not on a line and orthogonal axes, which holds for three different moments. False of the code: linear molecules give no numbers (poly_linear), asr lin ends with an exception (lin_nothing), and for equal moments the library routine may return axes which are not orthogonal (poly_oblique)."
  },
  {
   "property": "C96",
   "status": "partial",
   "theorems": [
    "Verif.Phonon.nm_discards",
    "Verif.Phonon.nmRow_exact",
    "Verif.Phonon.nm_exact_partial",
    "Verif.Phonon.nm_length",
    "Verif.Phonon.nm_distance",
    "Verif.Phonon.enm_energy",
    "Verif.Phonon.enm_bound",
    "Verif.Phonon.output_shift_ignored",
    "Verif.Phonon.output_shift_lost",
    "Verif.Phonon.full_half"
   ],
   "note": "Proved: what is computed is exact. False of the code: the computed matrix is overwritten by the given one (nm_discards), the output shift has no effect (output_shift_lost), and the full Hessian has half the force constant between a free and a fixed coordinate (full_half)."
  },
  {
   "property": "C97",
   "status": "partial",
   "theorems": [
    "Verif.Phonon.friction_restart_partial",
    "Verif.Phonon.friction_lost"
   ],
   "note": "Proved for kills that do not leave Hessian files without a friction file. False of the code there (friction_lost)."
  },
  {
   "property": "C98",
   "status": "partial",
   "theorems": [
    "Verif.MotionInput.call_ok",
    "Verif.MotionInput.motion_runs_partial",
    "Verif.MotionInput.multi_runs_partial",
    "Verif.MotionInput.constrained_fails",
    "Verif.MotionInput.constrained_never",
    "Verif.MotionInput.finished_missing",
    "Verif.MotionInput.multi_fails"
   ],
   "note": "The interplay of keyword arguments and attributes is modelled, not what the steps compute. Proved for all modes but three. False of the code for constrained_dynamics (constrained_fails, constrained_never), planetary and al-kmc (finished_missing)."
  },
  {
   "property": "C99",
   "status": "partial",
   "theorems": [
    "Verif.Estim.com_mean",
    "Verif.Estim.held_all",
    "Verif.Estim.held_mode",
    "Verif.Estim.temp_mean_partial",
    "Verif.Estim.temp_bead_mean",
    "Verif.Estim.temp_cc_centroid",
    "Verif.Estim.temp_cc_mode",
    "Verif.Estim.temp_multi_fails",
    "Verif.Estim.temp_multi_com",
    "Verif.Estim.kin_open",
    "Verif.Estim.equil_exists"
   ],
   "note": "Proved for every single motion, selection of atoms and beads or modes, but for the cases where the code is wrong: a normal mode of a centroid-constrained run with fixed atoms (temp_cc_centroid, temp_cc_mode), lists of motions with fixed coordinates (temp_multi_fails) or in which one member does not fix the centre of mass (temp_multi_com), and the total kinetic energy with open paths and scaled masses (kin_open)."
  },
  {
   "property": "C100",
   "status": "proved",
   "theorems": [
    "Verif.Estim.kinetic_agree",
    "Verif.Estim.averages_confining",
    "Verif.Estim.kincv_parts",
    "Verif.Estim.ktens_trace",
    "Verif.Estim.akcv_sum",
    "Verif.Estim.kstress_trace"
   ],
   "note": "Closed paths of distinguishable particles. Exact real arithmetic."
  },
  {
   "property": "C101",
   "status": "partial",
   "theorems": [
    "Verif.Estim.integral_scale",
    "Verif.Estim.zetatd_mean",
    "Verif.Estim.zetasc_mean",
    "Verif.Estim.tiWeight_mean",
    "Verif.Estim.chinWeight_mean",
    "Verif.Estim.zetatd4_mean",
    "Verif.Estim.zetasc4_mean_partial",
    "Verif.Estim.zetasc4_wrong",
    "Verif.Estim.trajZetatd_factor",
    "Verif.Estim.trajZetasc_factor",
    "Verif.Estim.trajZetatd_wrong",
    "Verif.Estim.traj_unselected",
    "Verif.Estim.logsumlog_pos",
    "Verif.Estim.logSum_pos",
    "Verif.Estim.logsumlog_wrong",
    "Verif.Estim.logsumlog_cancel",
    "Verif.Estim.smkee_partial",
    "Verif.Estim.smkee_wrong",
    "Verif.Estim.smkee_sc_mean",
    "Verif.Estim.smkee_td_mean",
    "Verif.Estim.tcv_kincv"
   ],
   "note": "Exact real arithmetic, closed paths, cell of the estimator as at the start. Proved for the second order estimators and the fourth order thermodynamic one; for the fourth order scaled-coordinates one only if the forces on the other atoms do not change. False of the code: interacting atoms in the latter (zetasc4_wrong), the trajectory of the thermodynamic estimator (trajZetatd_wrong), logarithmic sums with negative terms (logsumlog_wrong, logsumlog_cancel, smkee_wrong)."
  },
  {
   "property": "C102",
   "status": "proved",
   "theorems": [
    "Verif.Estim.linlin_mean",
    "Verif.Estim.openBoltz_zero",
    "Verif.Estim.openBoltz_integrable",
    "Verif.Estim.opening_sum",
    "Verif.Estim.qc_opened",
    "Verif.Estim.linlin_zero",
    "Verif.Estim.linlin_none"
   ],
   "note": "Exact real arithmetic; the cell of the copy used for displaced paths is that of the system (it is not when the cell changes)."
  },
  {
   "property": "C103",
   "status": "partial",
   "theorems": [
    "Verif.Estim.partition_scaled",
    "Verif.Estim.energy_capacity",
    "Verif.Estim.yama_limit",
    "Verif.Estim.scaledcoords",
    "Verif.Estim.eps_kincv",
    "Verif.Estim.potential_kinetic",
    "Verif.Estim.yama_ends",
    "Verif.Estim.yama_default_ends",
    "Verif.Estim.yama_result",
    "Verif.Estim.trap_smooth",
    "Verif.Estim.yama_zero"
   ],
   "note": "Exact real arithmetic. Proved for the limit of small displacements. False of the code with the automatic displacement for configurations at which the virial vanishes: zeros are printed though the differences converge (yama_zero)."
  },
  {
   "property": "C104",
   "status": "proved",
   "theorems": [
    "Verif.SC.sc_potential",
    "Verif.SC.scPot_grad",
    "Verif.SC.sc_force_affine",
    "Verif.SC.sc_force",
    "Verif.SC.trap_smooth",
    "Verif.SC.trap_affine"
   ],
   "note": "Exact real arithmetic; no contraction, finite difference parameters of one sign and not zero (see C105)."
  },
  {
   "property": "C105",
   "status": "partial",
   "theorems": [
    "Verif.SC.sc_refused",
    "Verif.SC.contraction_wrong",
    "Verif.SC.mixed_wrong",
    "Verif.SC.zero_wrong"
   ],
   "note": "Proved without contraction and for parameters of one sign (C104) and the explained refusals (sc_refused). False of the code: with a component contracted to the centroid the forces have no potential at all (contraction_wrong), components with parameters of different signs end with a mismatch of shapes (mixed_wrong) and a zero parameter with an unbound variable (zero_wrong)."
  },
  {
   "property": "C106",
   "status": "proved",
   "theorems": [
    "Verif.Estim.sc_energy",
    "Verif.Estim.sc_kinetic",
    "Verif.Estim.sc_potential_energy",
    "Verif.Estim.kincv_mass",
    "Verif.Estim.pot_coupling",
    "Verif.Estim.trap_ok",
    "Verif.Estim.quad_smooth"
   ],
   "note": "Exact real arithmetic; closed paths. The Suzuki-Chin forces are those of the Suzuki-Chin potential (C104)."
  },
  {
   "property": "C107",
   "status": "partial",
   "theorems": [
    "Verif.Estim.scyama_partial",
    "Verif.Estim.scyama_wrong",
    "Verif.Estim.scyama_eq"
   ],
   "note": "The limit of the printed values and the exact error of their average: the term with the squared forces is not rescaled, so the average misses twice the average of that term per replica (scyama_partial), which is positive in a trap (scyama_wrong)."
  },
  {
   "property": "C108",
   "status": "partial",
   "theorems": [
    "Verif.Estim.current_partial",
    "Verif.Estim.scaledcoords_current",
    "Verif.Estim.scOp_current",
    "Verif.Estim.virialFq_partial",
    "Verif.Estim.displaced_stale",
    "Verif.Estim.isotope_stale",
    "Verif.Estim.virialFq_stale",
    "Verif.Estim.scOp_stale"
   ],
   "note": "The properties that use copies or stored data; the others are functions of the state. Proved while the cell does not change, without contraction for the operator estimator, and for one reference of virial_fq. False of the code: displaced path and isotope estimators use the cell of the start or of the last scaled-coordinates output (displaced_stale, isotope_stale), the operator estimator uses old positions of the odd replicas if forces are contracted (scOp_stale), virial_fq keeps its first reference (virialFq_stale)."
  },
  {
   "property": "C109",
   "status": "proved",
   "theorems": [
    "Verif.Init.setVector_sets",
    "Verif.Init.setVector_error",
    "Verif.Init.positions_set",
    "Verif.Init.momenta_set",
    "Verif.Init.velocities_set",
    "Verif.Init.momenta_temperature",
    "Verif.Init.momenta_temperature_le",
    "Verif.Init.velocities_temperature",
    "Verif.Init.masses_set",
    "Verif.Init.masses_manual",
    "Verif.Init.labels_set",
    "Verif.Init.cell_set",
    "Verif.Init.cell_manual",
    "Verif.Init.thermal_set",
    "Verif.Init.stage1_complete"
   ],
   "note": "Exact real arithmetic; the content of the files is given (C31, C32 for the parsing). Velocities after the masses are known (see C110)."
  },
  {
   "property": "C110",
   "status": "partial",
   "theorems": [
    "Verif.Init.positions_last_partial",
    "Verif.Init.steps_masses",
    "Verif.Init.steps_positions",
    "Verif.Init.masses_known",
    "Verif.Init.positions_kept",
    "Verif.Init.kept_steps",
    "Verif.Init.positions_lost",
    "Verif.Init.manual_units_ignored",
    "Verif.Init.bead_momenta_scaled",
    "Verif.Init.missing_atom_ignored"
   ],
   "note": "Proved for the positions if the masses are known when velocities are set (positions_last_partial); each instruction by itself is C109. False of the code: velocities before masses clear the positions without an exception (positions_lost), the units of manual positions, momenta and velocities are ignored (manual_units_ignored), momenta of a single bead are multiplied by the square root of the number of beads (bead_momenta_scaled), and a mass for an atom that does not exist is ignored (missing_atom_ignored)."
  },
  {
   "property": "C111",
   "status": "partial",
   "theorems": [
    "Verif.Init.file_completes_partial",
    "Verif.Init.file_thermal_partial",
    "Verif.Init.cell_given",
    "Verif.Init.gle_raises",
    "Verif.Init.file_bead_raises",
    "Verif.Init.chk_raises",
    "Verif.Init.label_kept",
    "Verif.Init.label_cut"
   ],
   "note": "Proved for whole files with and without thermal momenta. False of the code: the tag gle never completes (gle_raises), nor does file with a bead (file_bead_raises), nor momenta, velocities or cell from a checkpoint (chk_raises)."
  },
  {
   "property": "C112",
   "status": "proved",
   "theorems": [
    "Verif.Init.thermal_modes",
    "Verif.Init.thermal_covariance",
    "Verif.Init.thermal_atom_covariance",
    "Verif.Init.thermal_temperature",
    "Verif.Init.thermal_request",
    "Verif.Init.white_exists"
   ],
   "note": "Exact real arithmetic; the generator is any white noise of unit variance. Closed paths: the auxiliary normal modes used by the code have no open paths."
  },
  {
   "property": "C113",
   "status": "partial",
   "theorems": [
    "Verif.Readback.read_back_partial",
    "Verif.Readback.two_units_mixed",
    "Verif.Readback.blank_dropped",
    "Verif.Readback.empty_brackets_dropped",
    "Verif.Readback.step_is_first_digit",
    "Verif.Readback.step_wrong",
    "Verif.Readback.step_right_partial",
    "Verif.Readback.last_header",
    "Verif.Readback.extras_read",
    "Verif.Readback.preface_shifts",
    "Verif.Readback.text_not_read_back"
   ],
   "note": "Proved for requests without blanks and empty brackets of which no two have the same name and arguments (read_back_partial), for steps below 10, and for extras that are arrays. False of the code: the same property in two units is mixed into one array (two_units_mixed), requests with a blank or empty brackets are dropped (blank_dropped, empty_brackets_dropped), from step 10 on a frame has the first digit of its step instead of the step (step_wrong), texts come back with doubled line ends (text_not_read_back)."
  },
  {
   "property": "C114",
   "status": "partial",
   "theorems": [
    "Verif.Cell.abc2h_gram",
    "Verif.Cell.abc2h_upper",
    "Verif.Cell.abc2h_exists",
    "Verif.Cell.abc2h_det",
    "Verif.Cell.upper_unique",
    "Verif.Cell.angles_back",
    "Verif.Cell.genh_proper",
    "Verif.Cell.genh_cell",
    "Verif.Cell.genh_positions",
    "Verif.Cell.cell_back",
    "Verif.Cell.file_back",
    "Verif.Cell.negative_diagonal_lost",
    "Verif.Cell.full_matrix_wrong"
   ],
   "note": "Proved for all proper lengths and angles, for upper triangular cells with positive diagonal and for full matrices given as GENH. False of the code: a cell with a negative diagonal entry is accepted in the input but written as another lattice (negative_diagonal_lost); a full matrix in a CELL(H) comment is accepted and wrapping then moves atoms by vectors that are not in the lattice (full_matrix_wrong)."
  },
  {
   "property": "C115",
   "status": "partial",
   "theorems": [
    "Verif.GleInit.chol_exact",
    "Verif.GleInit.chol_lower",
    "Verif.GleInit.chol_law",
    "Verif.GleInit.fresh_law",
    "Verif.GleInit.restart_kept",
    "Verif.GleInit.step_start",
    "Verif.GleInit.start_law",
    "Verif.GleInit.start_equilibrium_iff",
    "Verif.GleInit.start_default",
    "Verif.GleInit.nm_refused",
    "Verif.GleInit.nm_fresh_law",
    "Verif.GleInit.nm_restart_kept",
    "Verif.GleInit.correlated_start_leaves"
   ],
   "note": "Proved for the square root (exact if and only if the matrix is positive semidefinite), for the distribution of the auxiliary momenta and for the start in equilibrium when the covariance has no correlation between the momenta of the atoms and the auxiliary ones, which includes the default. False of the code for other covariances: the momenta of the atoms are not used when the auxiliary ones are drawn, and the first step takes them away from the temperature (correlated_start_leaves)."
  },
  {
   "property": "C116",
   "status": "partial",
   "theorems": [
    "Verif.MatrixExp.matrixExp_eq",
    "Verif.MatrixExp.matrixExp_nilpotent",
    "Verif.MatrixExp.matrixExp_error",
    "Verif.MatrixExp.drift_contracts",
    "Verif.MatrixExp.drift_error",
    "Verif.MatrixExp.drift_accurate",
    "Verif.MatrixExp.large_drift_wrong"
   ],
   "note": "Proved: the exact value of what is computed, an error bound for every matrix, exactness for nilpotent matrices, and sixteen digits for every damping drift matrix that is not greater than 1024 over a step. False of the code for larger matrices: the series is cut after a fixed number of terms and the factor can exceed one (large_drift_wrong). Exact real arithmetic."
  },
  {
   "property": "C117",
   "status": "partial",
   "theorems": [
    "Verif.Driven.field_as_specified_partial",
    "Verif.Driven.plane_wave_as_specified",
    "Verif.Driven.early_pulse_lost",
    "Verif.Driven.run_impulse",
    "Verif.Driven.impulse_converges_partial",
    "Verif.Driven.efield_smooth",
    "Verif.Driven.impulse_divided",
    "Verif.Driven.driven_step_reversible",
    "Verif.Driven.accepted_charges_net_force",
    "Verif.Driven.neutral_charges_accepted",
    "Verif.Driven.sum_rule_tolerance_too_large",
    "Verif.Driven.fixed_charges_count"
   ],
   "note": "Proved: the field for pulses with a peak after time zero and for plane waves, the impulse of every run, its convergence to the integral of the force when the outermost level has one substep, reversibility and the net force of accepted charges. False of the code: a pulse with its peak at time zero (the default) or before has no envelope (early_pulse_lost), with n substeps the impulse is one n-th (impulse_divided), and the tolerance of the sum rule is a factor of the number of atoms too large (sum_rule_tolerance_too_large). Exact real arithmetic."
  },
  {
   "property": "C118",
   "status": "partial",
   "theorems": [
    "Verif.Driven.dipole_derivative",
    "Verif.Driven.force_is_gradient",
    "Verif.Driven.interaction_energy_sign",
    "Verif.Driven.static_field_energy",
    "Verif.Driven.static_field_energy_printed",
    "Verif.Driven.dipole_read_partial",
    "Verif.Driven.dipole_printed_sound",
    "Verif.Driven.text_dipole_lost"
   ],
   "note": "Proved: the derivative of the dipole, the potential of the force, conservation of the energy of free atoms in a static field, and dipoles reported under their own name. False of the code: the printed interaction energy has the opposite sign (interaction_energy_sign, static_field_energy_printed), and dipoles reported in a text are printed as nan (text_dipole_lost). Exact real arithmetic; the regular expression is a parameter."
  },
  {
   "property": "C119",
   "status": "partial",
   "theorems": [
    "Verif.Estim.pressure_cv_scale",
    "Verif.Estim.pressure_cv_volume",
    "Verif.Estim.pressure_tdsc_volume",
    "Verif.Estim.stress_cv_strain",
    "Verif.Estim.stress_cv_not_classical",
    "Verif.Estim.one_bead_pressure",
    "Verif.Estim.pressure_trace",
    "Verif.Estim.pressure_md_scale",
    "Verif.Estim.pressure_md_misses_springs",
    "Verif.Estim.springs_left_out"
   ],
   "note": "Proved for the pressures of the physical system, the diagonal of the stress and the relations between the printed values. False of the code: entries of stress_cv off the diagonal lack the momenta (stress_cv_strain gives what they are, stress_cv_not_classical a case with one bead), and pressure_md leaves out the springs of the extended system (pressure_md_misses_springs). The virials and forces are assumed to be the derivatives of the potentials. Exact real arithmetic."
  },
  {
   "property": "C120",
   "status": "proved",
   "theorems": [
    "Verif.NmMass.closed_freqs",
    "Verif.NmMass.open_freqs",
    "Verif.NmMass.nmm_error",
    "Verif.NmMass.manual_moves",
    "Verif.NmMass.pacmd_moves",
    "Verif.NmMass.rpmd_moves",
    "Verif.NmMass.wmax_factor",
    "Verif.NmMass.wmax_moves",
    "Verif.NmMass.wmax_coincide",
    "Verif.NmMass.centroid_mass",
    "Verif.NmMass.handed_out",
    "Verif.NmMass.matsubara",
    "Verif.NmMass.open_matsubara"
   ],
   "note": "For the exact propagator; what the Cayley propagator does with scaled masses is in C42 and C68, and that a change of the temperature does not refresh the factors is in C02. The text of the input says that with wmax-cmd the modes coincide at frequency wmax: what holds is that in a well of this frequency the internal modes coincide with each other. Exact real arithmetic."
  },
  {
   "property": "C121",
   "status": "partial",
   "theorems": [
    "Verif.Sort.read_good",
    "Verif.Sort.sorted_files",
    "Verif.Sort.inEnsemble_one",
    "Verif.Sort.ends_well",
    "Verif.Sort.never_ends",
    "Verif.Sort.names_agree_partial",
    "Verif.Sort.names_differ",
    "Verif.Sort.swap_file",
    "Verif.Sort.repeated_line_wrong",
    "Verif.Sort.continued_wrong",
    "Verif.Sort.tables_wrong",
    "Verif.Sort.ends_badly"
   ],
   "note": "Proved for runs from the start that were not repeated in part, with frames of the expected shape. False of the code: files of momenta and the other quantities added later, of every n-th bead and of raw component extras are not found (names_differ), nor is the list of exchanges without a prefix (swap_file); without property and xyz files the script never ends (never_ends), with rare property rows it ends with an error (ends_badly); an exchange repeated after a restart hides all later exchanges (repeated_line_wrong); files begun by a continued run are sorted as if nothing had been exchanged (continued_wrong); extras with several lines per step are mixed up (tables_wrong)."
  },
  {
   "property": "C122",
   "status": "partial",
   "theorems": [
    "Verif.Trim.read_good",
    "Verif.Trim.trim_files",
    "Verif.Trim.trim_continue",
    "Verif.Trim.short_fails",
    "Verif.Trim.trim_swaps",
    "Verif.Trim.swaps_lost",
    "Verif.Trim.names_agree_partial",
    "Verif.Trim.names_differ"
   ],
   "note": "Proved for the files that are found. False of the code: momenta and other quantities, extras of a bias, and centroids in the ase format are not found (names_differ); the list of exchanges is not copied if replica exchange is one of several super-motions or if there is no prefix (swaps_lost)."
  },
  {
   "property": "C123",
   "status": "partial",
   "theorems": [
    "Verif.Acf.power_cos",
    "Verif.Acf.block_even",
    "Verif.Acf.block_mixes",
    "Verif.Acf.block_zero",
    "Verif.Acf.accum_spec",
    "Verif.Acf.average_blocks",
    "Verif.Acf.average_short",
    "Verif.Acf.acf_printed",
    "Verif.Acf.acf_zero",
    "Verif.Acf.blockData_frames",
    "Verif.Acf.gradient_linear",
    "Verif.Acf.gradient_quadratic",
    "Verif.Acf.window_zero",
    "Verif.Acf.window_last",
    "Verif.Acf.ft_cosine",
    "Verif.Acf.ft_sum",
    "Verif.Acf.ft_symm",
    "Verif.Acf.wraps_around",
    "Verif.Acf.odd_constant",
    "Verif.Acf.sizes_default",
    "Verif.Acf.sizes_ok",
    "Verif.Acf.sizes_given",
    "Verif.Acf.sizes_no_lag",
    "Verif.Acf.units_ignored",
    "Verif.Acf.last_lag",
    "Verif.Acf.rows_ft"
   ],
   "note": "Proved: which blocks are used, the mean square at lag zero for blocks of even length, the spectrum as the transform of the printed function, the sum rule, the derivative. False of the code: at other lags the frames at the end of a block are multiplied with those at its beginning (block_mixes says exactly what is printed, wraps_around); blocks of odd length, the default of the function, give wrong values at all lags (odd_constant); the unit named in the file is ignored (units_ignored); without padding the largest lag is not written (last_lag)."
  },
  {
   "property": "C124",
   "status": "partial",
   "theorems": [
    "Verif.GleAcf.lyapunov_solves",
    "Verif.GleAcf.lyapunov_unique",
    "Verif.GleAcf.cqp_eq",
    "Verif.GleAcf.cqp_momenta",
    "Verif.GleAcf.cqp_position",
    "Verif.GleAcf.func_unique",
    "Verif.GleAcf.exp_cos_integral",
    "Verif.GleAcf.corr_transform",
    "Verif.GleAcf.element_transform",
    "Verif.GleAcf.element_congr",
    "Verif.GleAcf.cov_qp",
    "Verif.GleAcf.kernel_element",
    "Verif.GleAcf.cqp_wrong",
    "Verif.GleAcf.omlist_spec",
    "Verif.GleAcf.convolve_eq",
    "Verif.GleAcf.isra_pos",
    "Verif.GleAcf.isra_fixed",
    "Verif.GleAcf.isra_true",
    "Verif.GleAcf.isra_decreases",
    "Verif.GleAcf.isra_monotone",
    "Verif.GleAcf.reported_symm",
    "Verif.GleAcf.reported_wrong"
   ],
   "note": "Proved: the kernel, although the covariance is wrong; positivity, fixed points and monotone misfit of the deconvolution. False of the code: the covariances of the position are divided by the frequency instead of multiplied (cqp_position, cqp_wrong), and the error that is reported is that of the transposed kernel (reported_wrong). Kernels for which the friction is raised to the spacing of the frequencies are covered by element_transform with the raised matrix."
  },
  {
   "property": "C125",
   "status": "partial",
   "theorems": [
    "Verif.Shm.fresh_spec",
    "Verif.Shm.next_poll_same_names",
    "Verif.Shm.one_poll_distinct",
    "Verif.Shm.results_belong_partial",
    "Verif.Shm.results_belong_one_poll",
    "Verif.Shm.pending_completes",
    "Verif.Shm.idle_accepts",
    "Verif.Shm.size_change_gives_up",
    "Verif.Shm.results_mixed_up",
    "Verif.Shm.results_of_another",
    "Verif.Shm.not_results_belong",
    "Verif.Shm.drop_ends_another",
    "Verif.Shm.drop_closes",
    "Verif.Shm.reconnect_same"
   ],
   "note": "Proved: the results are right and requests can be answered in all histories in which no two clients have had the same names, in particular if all clients connect in one round. Missing, because false of the code: two clients of which one is the last of a round and the other the first of the next have the same names (next_poll_same_names); then zeros or the results of another structure can be stored (results_mixed_up, results_of_another, not_results_belong), and dropping a client can end another (drop_ends_another)."
  },
  {
   "property": "C126",
   "status": "partial",
   "theorems": [
    "Verif.Neb.converged_ends",
    "Verif.Neb.band_across",
    "Verif.Neb.band_along",
    "Verif.Neb.band_norm_sq",
    "Verif.Neb.band_zero_iff",
    "Verif.Neb.climb_norm",
    "Verif.Neb.climb_zero_iff",
    "Verif.Neb.climb_along",
    "Verif.Neb.climb_across",
    "Verif.Neb.improved_up",
    "Verif.Neb.improved_down",
    "Verif.Neb.improved_reverse",
    "Verif.Neb.improved_flat",
    "Verif.Neb.band_reverse",
    "Verif.Neb.ends_and_fixed_stay",
    "Verif.Neb.success_means",
    "Verif.Neb.potentials_printed",
    "Verif.Neb.forces_printed_partial",
    "Verif.Neb.climbing_force_printed",
    "Verif.Neb.climbing_force_right_iff",
    "Verif.Neb.climbing_image_highest",
    "Verif.Neb.others_stay",
    "Verif.Neb.adjust_pos",
    "Verif.Neb.adjust_ge",
    "Verif.Neb.biggest_step_not_kept",
    "Verif.Neb.climb_restart_fails",
    "Verif.Neb.climb_restart_iff",
    "Verif.Neb.band_restart",
    "Verif.Neb.band_full_fails",
    "Verif.Neb.converged_refused",
    "Verif.Neb.not_forces_printed"
   ],
   "note": "Proved: the meaning of the forces and of success, end points and fixed atoms, potentials that are printed, forces that are printed in the first stage, choice of the climbing image, reversal of the path except where three energies are equal. False of the code: the force printed for the climbing image (climbing_force_printed, not_forces_printed), the limit on displacements (biggest_step_not_kept), restarting while climbing (climb_restart_fails, climb_restart_iff), restarting after the end (converged_refused), a Hessian of all atoms (band_full_fails)."
  },
  {
   "property": "C127",
   "status": "partial",
   "theorems": [
    "Verif.Run.run_split",
    "Verif.Run.script_single",
    "Verif.Run.script_is_run",
    "Verif.Run.run_state",
    "Verif.Run.run_quiet",
    "Verif.Run.restart_current",
    "Verif.Run.restart_continues",
    "Verif.Run.exit_current_partial",
    "Verif.Run.exit_forgets_edit",
    "Verif.Run.run_zero",
    "Verif.Run.run_zero_skips",
    "Verif.Run.run_zero_row_missing",
    "Verif.Run.initial_row_missing"
   ],
   "note": "Proved for calls that make at least one step: pieces do not matter, also with changes in between; equality with the program run in one go; RESTART after each call. False of the code: a call with no steps counts one (run_zero, run_zero_skips, run_zero_row_missing); RESTART at an exit after a change made by the script (exit_forgets_edit); the initial configuration if the first steps are made without outputs (initial_row_missing)."
  },
  {
   "property": "C128",
   "status": "partial",
   "theorems": [
    "Verif.Script.one_for_several",
    "Verif.Script.get_nested",
    "Verif.Script.set_nested",
    "Verif.Script.set_get",
    "Verif.Script.get_set_partial",
    "Verif.Script.set_keeps_momenta",
    "Verif.Script.last_cell_wins",
    "Verif.Script.missing_system_silent",
    "Verif.Script.missing_bead_silent",
    "Verif.Script.extra_bead_error",
    "Verif.Script.thermalize_conserved_partial",
    "Verif.Script.thermalize_fixed",
    "Verif.Script.thermalize_com",
    "Verif.Script.thermalize_energy"
   ],
   "note": "Proved: nesting, both round trips (beads of a system sharing a cell), momenta kept if none are given, conserved quantity and constraints of thermal momenta under the conditions of C43. False of the code: beads with different cells are accepted and all get the last one (last_cell_wins); too few systems or beads are accepted (missing_system_silent, missing_bead_silent); too many beads raise an error only after the simulation was changed (extra_bead_error)."
  },
  {
   "property": "C129",
   "status": "partial",
   "theorems": [
    "Verif.Scripting.mass_array_used",
    "Verif.Scripting.property_value",
    "Verif.Scripting.inet_socket",
    "Verif.Scripting.direct_pes",
    "Verif.Scripting.incomplete_refused",
    "Verif.Scripting.unix_becomes_inet",
    "Verif.Scripting.default_thermostat",
    "Verif.Scripting.given_thermostat_fails",
    "Verif.Scripting.masses_ignored",
    "Verif.Scripting.deuterium_is_hydrogen",
    "Verif.Scripting.first_structure_only",
    "Verif.Scripting.properties_available_partial",
    "Verif.Scripting.weights_unavailable",
    "Verif.Scripting.unit_ignored",
    "Verif.Scripting.ase_coherent"
   ],
   "note": "Proved: internet sockets, built-in potentials, refusals, default thermostats, reading all properties but two, coherence of the units of ASE. False of the code: unix sockets (unix_becomes_inet), a thermostat that is given (given_thermostat_fails), masses set with ASE (masses_ignored, deuterium_is_hydrogen), structures that differ (first_structure_only), two properties (weights_unavailable), units in the key (unit_ignored)."
  },
  {
   "property": "C130",
   "status": "partial",
   "theorems": [
    "Verif.Rattle.stepBc_impulse",
    "Verif.Rattle.refRel_centred",
    "Verif.Rattle.gram_solvable",
    "Verif.Rattle.projCot_tangent",
    "Verif.Rattle.projCot_id",
    "Verif.Rattle.projCot_pythagoras",
    "Verif.Rattle.projCot_nearest",
    "Verif.Rattle.projCot_energy",
    "Verif.Rattle.projCot_conserves",
    "Verif.Rattle.com_removal_tangent",
    "Verif.Rattle.all_groups_tangent",
    "Verif.Rattle.disjoint_independent",
    "Verif.Rattle.shared_atom_not_tangent",
    "Verif.Rattle.newton_end",
    "Verif.Rattle.newton_converged",
    "Verif.Rattle.never_warned",
    "Verif.Rattle.newton_consistent",
    "Verif.Rattle.newton_conserves",
    "Verif.Rattle.newton_linear",
    "Verif.Rattle.newton_linear_end",
    "Verif.Rattle.step_consistent",
    "Verif.Rattle.base_current",
    "Verif.Rattle.stepAg_tangent",
    "Verif.Rattle.stepAg_conserves",
    "Verif.Rattle.stepOc_conserved",
    "Verif.Rattle.stepBc_loses_energy",
    "Verif.Rattle.manifold_all",
    "Verif.Rattle.silent_failure",
    "Verif.Rattle.bond_derivative",
    "Verif.Rattle.angle_derivative",
    "Verif.Rattle.bond_translation",
    "Verif.Rattle.angle_translation",
    "Verif.Rattle.bond_rotation",
    "Verif.Rattle.bond_initial",
    "Verif.Rattle.angle_initial",
    "Verif.Rattle.eckart_affine",
    "Verif.Rattle.eckart_initial",
    "Verif.Rattle.eckart_momentum",
    "Verif.Rattle.eckart_angular_momentum",
    "Verif.Rattle.eckart_linear_singular",
    "Verif.Rattle.eckart_accepts_nodup",
    "Verif.Rattle.eckart_refuses_unsorted",
    "Verif.Rattle.max_norm_not_read_back",
    "Verif.Rattle.norm_read_back"
   ],
   "note": "Proved for groups without common atoms. Fails for groups that share an atom, for linear molecules with Eckart conditions, and when the iteration does not converge, about which the user is never warned."
  },
  {
   "property": "C131",
   "status": "partial",
   "theorems": [
    "Verif.Template.template_expanded",
    "Verif.Template.mismatch_refused",
    "Verif.Template.systems_one_each",
    "Verif.Template.suffix_label_spoiled",
    "Verif.Template.inserted_label_spoiled"
   ],
   "note": "Proved for labels that begin with a character used for nothing else and that follow a character that occurs in no label, including labels that are the beginning of other labels. False for labels that end with another label (suffix_label_spoiled) and for strings that contain a label (inserted_label_spoiled)."
  },
  {
   "property": "C132",
   "status": "partial",
   "theorems": [
    "Verif.Instanton.spring_gradient",
    "Verif.Instanton.spring_energy",
    "Verif.Instanton.spring_hessian_exact",
    "Verif.Instanton.spring_hessian_nonuniform",
    "Verif.Instanton.physical_hessian_exact",
    "Verif.Instanton.physical_scaled_twice",
    "Verif.Instanton.physical_hessian_nonuniform",
    "Verif.Instanton.band_entry",
    "Verif.Instanton.band_complete",
    "Verif.Instanton.complete_symm",
    "Verif.Instanton.sym_band_entry",
    "Verif.Instanton.band_two_beads",
    "Verif.Instanton.friction_gradient",
    "Verif.Instanton.friction_energy_counted",
    "Verif.Instanton.friction_energy_inconsistent",
    "Verif.Instanton.friction_derivatives_lost"
   ],
   "note": "Proved for the default discretisation without friction, and for at least three beads in the band form. Fails for any other discretisation, for friction, and for two beads."
  },
  {
   "property": "C133",
   "status": "partial",
   "theorems": [
    "Verif.InstFix.types_of_names",
    "Verif.InstFix.fixed_dofs_kept",
    "Verif.InstFix.whole_atoms",
    "Verif.InstFix.single_dofs_fix_atoms",
    "Verif.InstFix.single_dofs_refused",
    "Verif.InstFix.step_fixed",
    "Verif.InstFix.hessian_fixed",
    "Verif.InstFix.recompute_fails",
    "Verif.InstFix.lists_as_hessians",
    "Verif.InstFix.lbfgs_refused",
    "Verif.InstFix.lbfgs_never",
    "Verif.InstFix.friction_fails",
    "Verif.InstFix.friction_wrong",
    "Verif.InstFix.stretched_symmetric",
    "Verif.InstFix.stretched_ends",
    "Verif.InstFix.sum_rules_stale",
    "Verif.InstFix.rotation_not_removed",
    "Verif.InstFix.path_grows"
   ],
   "note": "Proved for whole fixed atoms, the step and the Hessian of the optimisers that update it by Powell's formula. Fails for single degrees of freedom, the lbfgs optimiser, the Hessian computed again in every step, the final Hessian of the friction; and the sum rules use the first structure."
  },
  {
   "property": "C134",
   "status": "partial",
   "theorems": [
    "Verif.StringMep.never_starts",
    "Verif.StringMep.param_start",
    "Verif.StringMep.param_end",
    "Verif.StringMep.param_mono",
    "Verif.StringMep.ends_stay",
    "Verif.StringMep.equidistant_stay",
    "Verif.StringMep.straight_equidistant",
    "Verif.StringMep.natural3_through",
    "Verif.StringMep.natural3_affine",
    "Verif.StringMep.not_equidistant",
    "Verif.StringMep.across_orthogonal",
    "Verif.StringMep.across_zero_iff",
    "Verif.StringMep.first_step_equidistant",
    "Verif.StringMep.first_step_wrong"
   ],
   "note": "Proved: the ends, beads at equal distances, straight paths, the projection. Fails: a calculation never starts; the beads are at equal distances only along the broken line; the forces of the first step."
  },
  {
   "property": "C135",
   "status": "proved",
   "theorems": [
    "Verif.Sparse.csr_entries",
    "Verif.Sparse.csc_entries",
    "Verif.Sparse.csr_roundtrip",
    "Verif.Sparse.csc_roundtrip",
    "Verif.Sparse.save_load",
    "Verif.Sparse.file_roundtrip",
    "Verif.Sparse.elementwise_entries",
    "Verif.Sparse.stored_count",
    "Verif.Sparse.unframe_frame",
    "Verif.Sparse.unframeAll_frames",
    "Verif.Sparse.cut_frame_fails",
    "Verif.Sparse.empty_frame_fails"
   ],
   "note": "Numbers are abstract with a comparison to zero; an entry that compares equal to zero (a negative zero) comes back as zero. The zip archive of numpy between the arrays and the characters is not modelled."
  },
  {
   "property": "C136",
   "status": "partial",
   "theorems": [
    "Verif.Planet.harmonic_exact",
    "Verif.Planet.estimate_symm",
    "Verif.Planet.expand_block",
    "Verif.Planet.near_symm",
    "Verif.Planet.saved",
    "Verif.Planet.saved_whole",
    "Verif.Planet.saved_csc",
    "Verif.Planet.modeFreq_eq",
    "Verif.Planet.start_same",
    "Verif.Planet.start_contracted_partial",
    "Verif.Planet.not_start_contracted",
    "Verif.Planet.more_beads_fails",
    "Verif.Planet.one_bead_fails",
    "Verif.Planet.encodedSavez_fails",
    "Verif.Planet.never_written",
    "Verif.Planet.skipped"
   ],
   "note": "The estimator, the screening and what would be written are right. The matrix is never written (a zip archive is written to a text buffer, which raises a TypeError), and a reduction to three or more beads does not start from the contraction of the path. The constrained dynamics between the samples is not modelled."
  },
  {
   "property": "C137",
   "status": "partial",
   "theorems": [
    "Verif.Dmd.mdStep_reversible",
    "Verif.Dmd.slot_inj",
    "Verif.Dmd.slot_surj",
    "Verif.Dmd.slot_range",
    "Verif.Dmd.not_documented_order",
    "Verif.Dmd.documented_order_iff",
    "Verif.Dmd.clock",
    "Verif.Dmd.clock_one_partial",
    "Verif.Dmd.not_clock",
    "Verif.Dmd.clock_stopped",
    "Verif.Dmd.no_clock",
    "Verif.Dmd.force_lags",
    "Verif.Dmd.static_partial",
    "Verif.Dmd.not_force_of_time",
    "Verif.Dmd.not_restart",
    "Verif.Dmd.restart_force"
   ],
   "note": "Each pair has its own coupling, but not in the documented order. The clock advances once for every system and bias component that uses the force field, so it is right for one system only. The force is that of the step before, and a continued run begins with a different force. The step is modelled for velocity Verlet and one coordinate; energy, force and virial at a given time are C84."
  },
  {
   "property": "C138",
   "status": "partial",
   "theorems": [
    "Verif.Multi.totdt_eq",
    "Verif.Multi.fixatoms_mem",
    "Verif.Multi.fixcom_iff",
    "Verif.Multi.not_fixed_by_any",
    "Verif.Multi.step_spec",
    "Verif.Multi.nmdt_last",
    "Verif.Multi.nmdt_all",
    "Verif.Multi.as_alone_partial",
    "Verif.Multi.not_as_alone",
    "Verif.Multi.freeDyn_alone"
   ],
   "note": "Right if all the dynamics of the list have the same time step for the positions. Otherwise the internal modes of ring polymers are propagated with the time step of the last one. Failures of the constructors and missing attributes of single motions are C98."
  },
  {
   "property": "C139",
   "status": "partial",
   "theorems": [
    "Verif.Rot3.quat_proper",
    "Verif.Rot3.euler_proper",
    "Verif.Rot3.random_spec",
    "Verif.Rot3.grid_proper",
    "Verif.Rot3.all_ortho",
    "Verif.Rot3.legendre_length",
    "Verif.Rot3.lebedev_length",
    "Verif.Rot3.legendre_iso",
    "Verif.Rot3.lebedev_iso",
    "Verif.Rot3.legendre_average",
    "Verif.Rot3.lebedev_average",
    "Verif.Rot3.legendre_no_alias",
    "Verif.Rot3.legendre_no_alias_last",
    "Verif.Rot3.legendre_middle",
    "Verif.Rot3.order_one",
    "Verif.Rot3.proper_only_partial",
    "Verif.Rot3.random_mirrors",
    "Verif.Rot3.not_proper_only"
   ],
   "note": "Holds except that mirror images are evaluated with random rotations even without inversion. That the roots and weights (numpy) and the table of points integrate polynomials over the line and the sphere is a hypothesis; exactness for all rotations is proved for second order, for higher orders separately for the three angles."
  },
  {
   "property": "C140",
   "status": "partial",
   "theorems": [
    "Verif.Transfer.inv_new",
    "Verif.Transfer.inv_run",
    "Verif.Transfer.readU_spec",
    "Verif.Transfer.transfer_partial",
    "Verif.Transfer.transfer_history_partial",
    "Verif.Transfer.set_after",
    "Verif.Transfer.load_refuses",
    "Verif.Transfer.readTotal_spec",
    "Verif.Transfer.zero_weight",
    "Verif.Transfer.zero_weight_stale",
    "Verif.Transfer.other_cell",
    "Verif.Transfer.not_other_cell",
    "Verif.Transfer.load_other_positions",
    "Verif.Transfer.manual_reads",
    "Verif.Transfer.manual_one"
   ],
   "note": "Holds if every component of the reference object has been evaluated and the cells are equal. Components of zero weight are not evaluated, and their missing or stale results are taken over as valid. The manual variant sets zeros for the virial. One thread; the totals are represented by the components they read."
  },
  {
   "property": "C141",
   "status": "partial",
   "theorems": [
    "Verif.Kmc.init_inv",
    "Verif.Kmc.apply_inv",
    "Verif.Kmc.events_ok",
    "Verif.Kmc.targets_distinct",
    "Verif.Kmc.events_nodup",
    "Verif.Kmc.reverse_event",
    "Verif.Kmc.detailed_balance",
    "Verif.Kmc.pick_iff",
    "Verif.Kmc.pick_share",
    "Verif.Kmc.pick_some",
    "Verif.Kmc.dwell_nonneg",
    "Verif.Kmc.dwell_exponential",
    "Verif.Kmc.step_ok",
    "Verif.Kmc.step_stuck",
    "Verif.Kmc.count_cap",
    "Verif.Kmc.unique_spec",
    "Verif.Kmc.new_positions",
    "Verif.Kmc.near_symm",
    "Verif.Kmc.twelve",
    "Verif.Kmc.neigh_symm",
    "Verif.Kmc.not_mutual_two",
    "Verif.Kmc.not_reversible_two"
   ],
   "note": "Holds for lattices of at least three cells in each direction (twelve, neigh_symm, reverse_event). For two cells the rows of the neighbour table are filled with site 0 and events without a reverse exist. Exact real numbers; the relaxed energies are a function of the occupation (see C142 for the cache and the threads); the nearest-neighbour search is in exact lattice coordinates."
  },
  {
   "property": "C142",
   "status": "partial",
   "theorems": [
    "Verif.KmcCache.lock_held_inside",
    "Verif.KmcCache.results_right_partial",
    "Verif.KmcCache.next_start_partial",
    "Verif.KmcCache.cache_right",
    "Verif.KmcCache.cache_bounded",
    "Verif.KmcCache.no_error_partial",
    "Verif.KmcCache.all_cached_partial",
    "Verif.KmcCache.fewer_left",
    "Verif.KmcCache.can_go_on",
    "Verif.KmcCache.ends_partial",
    "Verif.KmcCache.too_long",
    "Verif.KmcCache.not_safe_full",
    "Verif.KmcCache.not_safe_same",
    "Verif.KmcCache.failed_zero",
    "Verif.KmcCache.failed_stuck",
    "Verif.KmcCache.no_room_zero"
   ],
   "note": "The results are right for every schedule that ends (results_right_partial); there is no error if the cache has room for the structures of the step (no_error_partial) and the events lead to different structures, which holds for at least three cells (Verif.Kmc.targets_distinct, events_nodup). False of the code if the cache is full. A relaxation is a function of the structure; operations on dictionaries and flags are atomic."
  },
  {
   "property": "C143",
   "status": "partial",
   "theorems": [
    "Verif.Baro.sc_weights",
    "Verif.Baro.sc_pstep_eq",
    "Verif.Baro.sc_kick_exact",
    "Verif.Baro.slow_kick",
    "Verif.Baro.iso_pstep_back",
    "Verif.Baro.free_comm",
    "Verif.Baro.sc_step_reversible_partial",
    "Verif.Baro.bias_not_reversible"
   ],
   "note": "Reversibility of a whole step is proved for one level of multiple time stepping, without thermostat and without bias. With a bias at the innermost level it fails (bias_not_reversible): the piston's kinetic terms leave out the bias."
  },
  {
   "property": "C144",
   "status": "partial",
   "theorems": [
    "Verif.Baro.quot_limit",
    "Verif.Baro.high_order_limit",
    "Verif.Baro.high_order_weights",
    "Verif.Baro.sc_rate",
    "Verif.Baro.sc_conserved_iff",
    "Verif.Baro.square_strain",
    "Verif.Baro.v4_wrong",
    "Verif.Baro.trap_ok",
    "Verif.Baro.trap_sc2",
    "Verif.Baro.trap_consistent",
    "Verif.Baro.sc_not_conserved"
   ],
   "note": "The property fails: the high order virial lacks twice the square of the forces over the masses (v4_wrong, for every smooth potential), so the conserved quantity drifts (sc_not_conserved). Proved: it is conserved if and only if the trace of the high order virial is right (sc_conserved_iff)."
  },
  {
   "property": "C145",
   "status": "partial",
   "theorems": [
    "Verif.Scp.samples_even",
    "Verif.Scp.samples_disjoint",
    "Verif.Scp.samples_nodup",
    "Verif.Scp.samples_odd",
    "Verif.Scp.sample_opposite",
    "Verif.Scp.all_evaluated",
    "Verif.Scp.reload_first",
    "Verif.Scp.second_restart_fails"
   ],
   "note": "Proved for an even number of samples. With an odd number the calculation stops with an IndexError at its first iteration (samples_odd). The second continuation of a run stops with an error (second_restart_fails)."
  },
  {
   "property": "C146",
   "status": "proved",
   "theorems": [
    "Verif.Scp.td_right",
    "Verif.Scp.correlations",
    "Verif.Scp.classical",
    "Verif.Scp.iK_inverse",
    "Verif.Scp.rw_ratio",
    "Verif.Scp.rw_own",
    "Verif.Scp.batchW_own",
    "Verif.Scp.batchW_le_one",
    "Verif.Scp.avg_force_harmonic",
    "Verif.Scp.var_force_harmonic",
    "Verif.Scp.hessian_kept"
   ],
   "note": "The diagonalisation is assumed orthogonal and to rebuild the matrix; the modes that are chopped are assumed exactly zero where stated."
  },
  {
   "property": "C147",
   "status": "partial",
   "theorems": [
    "Verif.Scp.nmik_step",
    "Verif.Scp.ik_exact",
    "Verif.Scp.nmik_newton",
    "Verif.Scp.precheck_skips",
    "Verif.Scp.reference_stable",
    "Verif.Scp.sd_never_moves",
    "Verif.Scp.rnmik_never_ends",
    "Verif.Scp.imaginary_real"
   ],
   "note": "Proved for ik and nmik. Steepest descent never moves with the default options (sd_never_moves), rnmik does not end at the minimum of a harmonic potential (rnmik_never_ends, exact arithmetic), imaginary frequencies become real ones (imaginary_real)."
  },
  {
   "property": "C148",
   "status": "partial",
   "theorems": [
    "Verif.Scp.later_average",
    "Verif.Scp.restart_before_move",
    "Verif.Scp.restart_weights",
    "Verif.Scp.restart_biased",
    "Verif.Scp.options_back_iff",
    "Verif.Scp.restart_sd_stops"
   ],
   "note": "Holds in uninterrupted runs and for interruptions before the first move. It fails after a move: the samples of the first iteration are taken for samples of the present distribution (restart_biased), and three options go back to their defaults (options_back_iff, restart_sd_stops)."
  },
  {
   "property": "C149",
   "status": "partial",
   "theorems": [
    "Verif.Vscf.sweep_eq",
    "Verif.Vscf.sweep_ends",
    "Verif.Vscf.table_nodup",
    "Verif.Vscf.dv_right",
    "Verif.Vscf.table_right",
    "Verif.Vscf.df_right",
    "Verif.Vscf.df_harmonic",
    "Verif.Vscf.stop_iff",
    "Verif.Vscf.pass_ends",
    "Verif.Vscf.harmonic_ends",
    "Verif.Vscf.df_wrong",
    "Verif.Vscf.bounded_never_ends"
   ],
   "note": "Distinct displacements and energies proved for all cases; forces for one primitive cell; the end for surfaces that grow. With several primitive cells the force column is wrong (df_wrong, df_harmonic), and along a bond that can break the sampling never ends (bounded_never_ends)."
  },
  {
   "property": "C150",
   "status": "partial",
   "theorems": [
    "Verif.Vscf.ham_eq",
    "Verif.Vscf.ham_symm",
    "Verif.Vscf.eigh_diagonal",
    "Verif.Vscf.harmonic_zero",
    "Verif.Vscf.gibbs_helmholtz",
    "Verif.Vscf.har_truncated",
    "Verif.Vscf.basis_converged",
    "Verif.Vscf.nzero_first",
    "Verif.Vscf.tiny_iff",
    "Verif.Vscf.imf_totals",
    "Verif.Vscf.first_basis_pos",
    "Verif.Vscf.first_accepted",
    "Verif.Vscf.reload_differs",
    "Verif.Vscf.restart_drops",
    "Verif.Vscf.reload_offset",
    "Verif.Vscf.imaginary_treated"
   ],
   "note": "Proved for runs from the first step without imaginary modes. The first basis can be accepted unconverged (first_accepted), repeated and continued calculations give other numbers (reload_differs, reload_offset, restart_drops), imaginary modes are not passed over (imaginary_treated)."
  },
  {
   "property": "C151",
   "status": "partial",
   "theorems": [
    "Verif.Vscf.half1d_eq",
    "Verif.Vscf.map1d_aligned",
    "Verif.Vscf.map1d_range",
    "Verif.Vscf.inms_last",
    "Verif.Vscf.inms_at",
    "Verif.Vscf.disp_own",
    "Verif.Vscf.indep_own",
    "Verif.Vscf.pair_right",
    "Verif.Vscf.coupling_separable",
    "Verif.Vscf.coupling_axes",
    "Verif.Vscf.files_right",
    "Verif.Vscf.repeat_complete",
    "Verif.Vscf.mean_field",
    "Verif.Vscf.read_modes",
    "Verif.Vscf.indep_shifted",
    "Verif.Vscf.indep_fails",
    "Verif.Vscf.small_mode",
    "Verif.Vscf.one_mode",
    "Verif.Vscf.restart_pairs",
    "Verif.Vscf.stopped_between"
   ],
   "note": "Proved when all the modes passed over count as zero modes and the calculation was not stopped between the two files of a pair. Otherwise the samples of another mode are used or the step fails (indep_shifted, indep_fails, small_mode), the second file is never written (stopped_between), one mode cannot be repeated (one_mode), continued runs fail (restart_pairs)."
  },
  {
   "property": "C152",
   "status": "partial",
   "theorems": [
    "Verif.Vscf.couplings_loaded",
    "Verif.Vscf.rhoAdd_eq",
    "Verif.Vscf.rho_density",
    "Verif.Vscf.rho_two",
    "Verif.Vscf.mix_one",
    "Verif.Vscf.scf_end",
    "Verif.Vscf.rho_last",
    "Verif.Vscf.rho_three",
    "Verif.Vscf.rho_degenerate",
    "Verif.Vscf.mix_fixed",
    "Verif.Vscf.mix_right_iff",
    "Verif.Vscf.mix_contracts"
   ],
   "note": "The density is normalised, and right for one and two states; the mean field is right without mixing; the end is proved. With three or more states the higher ones get too much weight (rho_last, rho_three, rho_degenerate); with mixing the iteration goes to another mean field (mix_fixed, mix_right_iff, mix_contracts)."
  },
  {
   "property": "C153",
   "status": "partial",
   "theorems": [
    "Verif.Reweight.total_is_variance",
    "Verif.Reweight.other_frames",
    "Verif.Reweight.rawW_eq",
    "Verif.Reweight.direct_right",
    "Verif.Reweight.weights_sum",
    "Verif.Reweight.direct_shift",
    "Verif.Reweight.direct_equal",
    "Verif.Reweight.cov_eq",
    "Verif.Reweight.cea_cov",
    "Verif.Reweight.cea_first_order",
    "Verif.Reweight.cea_expands",
    "Verif.Reweight.cea_mean",
    "Verif.Reweight.multi_swapped",
    "Verif.Reweight.multi_agree",
    "Verif.Reweight.multi_wrong",
    "Verif.Reweight.every_spec",
    "Verif.Reweight.negative_stride"
   ],
   "note": "Proved for the averages. With several models of the observable, the uncertainty due to the potentials is not what it should be (multi_swapped, multi_agree, multi_wrong); a negative stride ends in an unset variable (negative_stride)."
  },
  {
   "property": "C154",
   "status": "partial",
   "theorems": [
    "Verif.BeadTools.chosen_iff",
    "Verif.BeadTools.muxFrame_all",
    "Verif.BeadTools.muxFrame_part",
    "Verif.BeadTools.mux_spec",
    "Verif.BeadTools.mux_equal",
    "Verif.BeadTools.mux_end",
    "Verif.BeadTools.mux_incomplete",
    "Verif.BeadTools.wrap_fails",
    "Verif.BeadTools.unwrap_fails",
    "Verif.BeadTools.tag_fails"
   ],
   "note": "Proved for merging with equal lengths or an end; with unequal lengths an incomplete frame is written (mux_spec, mux_incomplete). Wrapping, following and averaging fail at once (wrap_fails, unwrap_fails, tag_fails)."
  },
  {
   "property": "C155",
   "status": "proved",
   "theorems": [
    "Verif.BeadTools.kcv_diag",
    "Verif.BeadTools.kcv_od",
    "Verif.BeadTools.kcv_tens",
    "Verif.BeadTools.kcv_trace",
    "Verif.BeadTools.kcv_shift",
    "Verif.BeadTools.fixcom_zero",
    "Verif.BeadTools.fixcom_rel",
    "Verif.BeadTools.fixcom_twice"
   ],
   "note": "Over exact arithmetic; reading and printing are the subject of other properties. The masses are taken to be the same in the files of all beads."
  },
  {
   "property": "C156",
   "status": "partial",
   "theorems": [
    "Verif.InstSteps.three_beads",
    "Verif.InstSteps.imv_accepted",
    "Verif.InstSteps.imv_mode",
    "Verif.InstSteps.imv_lowest",
    "Verif.InstSteps.imv_falls",
    "Verif.InstSteps.kept_spec",
    "Verif.InstSteps.newton_residual",
    "Verif.InstSteps.newton_stationary",
    "Verif.InstSteps.lanczos_direction",
    "Verif.InstSteps.shorten_spec",
    "Verif.InstSteps.exit_sound",
    "Verif.InstSteps.flat_accepted",
    "Verif.InstSteps.small_type_error",
    "Verif.InstSteps.lanczos_splitting",
    "Verif.InstSteps.exit_on_slope"
   ],
   "note": "Proved for imaginary modes beyond 80 wave numbers, for Newton steps and for Lanczos steps of rate calculations (except when the second eigenvalue is exactly half the first, both negative). Lanczos steps of a splitting calculation leave the minimum (lanczos_splitting); a flat mode is accepted (flat_accepted); the end does not imply a small force (exit_on_slope)."
  },
  {
   "property": "C157",
   "status": "partial",
   "theorems": [
    "Verif.InstPost.dist2_weighted",
    "Verif.InstPost.double_symm",
    "Verif.InstPost.double_hessian",
    "Verif.InstPost.spring_ring",
    "Verif.InstPost.action2_BN",
    "Verif.InstPost.action1_ring",
    "Verif.InstPost.ring_modes",
    "Verif.InstPost.reactant_exact",
    "Verif.InstPost.reactant_limit",
    "Verif.InstPost.ts_limit",
    "Verif.InstPost.collapsed_consistent",
    "Verif.InstPost.second_left_out",
    "Verif.InstPost.rotation_consistent",
    "Verif.InstPost.discretization_equal",
    "Verif.InstPost.vibration_lost",
    "Verif.InstPost.discretization_ignored"
   ],
   "note": "Proved for equal spacing in imaginary time and when the mode that permutes the beads is the second one left. With other spacings the printed action is not the one that was optimised (discretization_ignored); when the permutation mode was already removed a vibration is lost (vibration_lost)."
  },
  {
   "property": "C158",
   "status": "partial",
   "theorems": [
    "Verif.InstPost.linear_modes",
    "Verif.InstPost.linear_prod",
    "Verif.InstPost.reference_exact",
    "Verif.InstPost.rows_complete",
    "Verif.InstPost.file_holds_eigenvalues",
    "Verif.InstPost.squared_again",
    "Verif.InstPost.reference_too_small",
    "Verif.InstPost.soft_mode_kept",
    "Verif.InstPost.extra_zero_rows"
   ],
   "note": "The formula for the reference is proved to be the fluctuation of the fixed-end polymer in closed form. It is applied to squared eigenvalues (squared_again), the soft mode is not the one left out (soft_mode_kept), and rows of zeros are added that stand for no mode (extra_zero_rows)."
  },
  {
   "property": "C159",
   "status": "partial",
   "theorems": [
    "Verif.InstInterp.through_old_beads",
    "Verif.InstInterp.refined",
    "Verif.InstInterp.unchanged",
    "Verif.InstInterp.mean_kept",
    "Verif.InstInterp.stiffest_zero",
    "Verif.InstInterp.hessian_elements",
    "Verif.InstInterp.hessian_refined",
    "Verif.InstInterp.hessian_symmetric",
    "Verif.InstInterp.half_not_mirrored"
   ],
   "note": "Proved except that the new half is not the half of the new ring (half_not_mirrored)."
  },
  {
   "property": "C160",
   "status": "partial",
   "theorems": [
    "Verif.Estim.sckinop_even",
    "Verif.Estim.sckinpr_primitive",
    "Verif.Estim.od_sums",
    "Verif.Estim.diagonal_sums",
    "Verif.Estim.gyration_components",
    "Verif.Estim.gyration_property",
    "Verif.Estim.ti_consistent",
    "Verif.Estim.ti_additive",
    "Verif.Estim.sc_square_part",
    "Verif.Estim.sckinpr_mass_derivative",
    "Verif.Estim.sckinop_free",
    "Verif.Estim.sckinop_translation",
    "Verif.Estim.vcom_species",
    "Verif.Estim.virial_first",
    "Verif.Estim.virial_harmonic",
    "Verif.Estim.reference_ignored",
    "Verif.Estim.reference_matters",
    "Verif.Estim.vcom_bead_refused"
   ],
   "note": "Proved except for the argument bead of vcom, which is refused (vcom_bead_refused), and the reference of virial_fq, which is kept from the first output (reference_ignored, reference_matters)."
  },
  {
   "property": "C161",
   "status": "proved",
   "theorems": [
    "Verif.Ppi.row_sample",
    "Verif.Ppi.kinetic_estimators",
    "Verif.Ppi.total_correction",
    "Verif.Ppi.potential_correction",
    "Verif.Ppi.kinetic_correction",
    "Verif.Ppi.columns_add",
    "Verif.Ppi.dK_same",
    "Verif.Ppi.free_deriv",
    "Verif.Ppi.heat_correction",
    "Verif.Ppi.ti_weight",
    "Verif.Ppi.first_order",
    "Verif.Ppi.avg_deriv"
   ],
   "note": "Heat capacity for the Boltzmann constant of the program, which is one. The fortran variants of the sums are not modelled."
  },
  {
   "property": "C162",
   "status": "partial",
   "theorems": [
    "Verif.Ppi.extract_found",
    "Verif.Ppi.column_iff",
    "Verif.Ppi.wide_wrong",
    "Verif.Ppi.verbose_fails",
    "Verif.Ppi.atomic_unit_fails",
    "Verif.Ppi.search_none"
   ],
   "note": "Proved for files in which all properties before have one column (column_iff); with wider properties before another column is read (wide_wrong)."
  },
  {
   "property": "C163",
   "status": "partial",
   "theorems": [
    "Verif.Getprop.short_row",
    "Verif.Getprop.prints_column",
    "Verif.Getprop.wide_fails",
    "Verif.Getprop.prefix_refused",
    "Verif.Getprop.none_found",
    "Verif.Getprop.temperature_refused",
    "Verif.Getprop.find_one",
    "Verif.Getprop.find_wide",
    "Verif.Getprop.find_not"
   ],
   "note": "Proved for properties of one column whose name no other property's text begins with (prints_column); otherwise nothing is printed (wide_fails, prefix_refused). Names with characters that mean something in a pattern are not modelled."
  },
  {
   "property": "C164",
   "status": "partial",
   "theorems": [
    "Verif.ContractTraj.shortest",
    "Verif.ContractTraj.centroid_partial",
    "Verif.ContractTraj.mismatch",
    "Verif.ContractTraj.cell_as_bohr",
    "Verif.ContractTraj.label_lost",
    "Verif.ContractTraj.demo_runs",
    "Verif.ContractTraj.cell_shrinks",
    "Verif.ContractTraj.step_ok",
    "Verif.ContractTraj.loop_rows",
    "Verif.ContractTraj.b1tob2_scale",
    "Verif.ContractTraj.auto_atomic",
    "Verif.ContractTraj.autoUnits_is_word"
   ],
   "note": "Frames, centroid, equal beads and refusal hold (shortest, centroid_partial, mismatch); cell and label do not (cell_as_bohr, cell_shrinks, label_lost). Rounding of the formats and names of atoms are not modelled."
  },
  {
   "property": "C165",
   "status": "partial",
   "theorems": [
    "Verif.CavPh.derOf_order",
    "Verif.CavPh.forces_belong",
    "Verif.CavPh.one_cavity",
    "Verif.CavPh.counted_twice",
    "Verif.CavPh.inactive_forces",
    "Verif.CavPh.photons_only_cavity",
    "Verif.CavPh.missing_dipole",
    "Verif.CavPh.wrong_size",
    "Verif.CavPh.run_sound",
    "Verif.CavPh.demo_sound",
    "Verif.CavPh.total_eq"
   ],
   "note": "Energies and forces belong together for any list of sound drivers (forces_belong) and contain one cavity if one driver evaluates the photons (one_cavity). Inactive atoms and missing dipoles: false (inactive_forces, missing_dipole). One bath, as the constructor sets up; sizes reported through softexit.trigger are an outcome."
  },
  {
   "property": "C166",
   "status": "partial",
   "theorems": [
    "Verif.A2b.cell_default",
    "Verif.A2b.converted_partial",
    "Verif.A2b.same_numbers",
    "Verif.A2b.plain_fails",
    "Verif.A2b.eforces_renamed",
    "Verif.A2b.keys_apart",
    "Verif.A2b.found",
    "Verif.A2b.convert_kept",
    "Verif.A2b.loop_kept",
    "Verif.A2b.search_some",
    "Verif.A2b.search_none",
    "Verif.A2b.accepted_factor",
    "Verif.A2b.announced_nonempty"
   ],
   "note": "Proved for trajectories written by i-PI with any quantity but Eforces (converted_partial, same_numbers); false for files that announce no quantity (plain_fails) and for Eforces (eforces_renamed). One number stands for all numbers of data and cell."
  },
  {
   "property": "C167",
   "status": "partial",
   "theorems": [
    "Verif.Boson.open_frequencies",
    "Verif.Boson.index_resolved",
    "Verif.Boson.label_resolved",
    "Verif.Boson.restart_same",
    "Verif.Boson.energy_partial",
    "Verif.Boson.energy_beads_partial",
    "Verif.Boson.forces_partial",
    "Verif.Boson.never_distinguishable",
    "Verif.Boson.kinetic_of",
    "Verif.Boson.too_large",
    "Verif.Boson.repeated_accepted",
    "Verif.Boson.repeated_frees_others",
    "Verif.Boson.repeated_subtracted",
    "Verif.Boson.minus_one_is_all_bosons",
    "Verif.Boson.total_eq",
    "Verif.Boson.vspring_eq",
    "Verif.Boson.lastIdx_eq",
    "Verif.Boson.included_eq",
    "Verif.Boson.looped_iff",
    "Verif.Boson.looped_eq"
   ],
   "note": "Proved for lists without repetition and without open paths (energy_partial, energy_beads_partial, forces_partial); false for lists in which an atom is repeated, which are accepted (repeated_accepted, repeated_frees_others, repeated_subtracted), and for the kinetic energy of the atom -1 (minus_one_is_all_bosons). Exchange energy and forces are those of C37 and C38."
  },
  {
   "property": "C168",
   "status": "partial",
   "theorems": [
    "Verif.Boson.drift_once",
    "Verif.Boson.block_reversible",
    "Verif.Boson.internal_energy_kept",
    "Verif.Boson.internal_bounded",
    "Verif.Boson.ring_modes",
    "Verif.Boson.ring_energy_kept",
    "Verif.Boson.centroid_kept",
    "Verif.Boson.momentum_kept",
    "Verif.Boson.negative_freezes",
    "Verif.Boson.scaled_mass_ignored",
    "Verif.Boson.drift_nonzero",
    "Verif.Boson.revert_qcstep",
    "Verif.Boson.flip_flip",
    "Verif.Boson.verlet_reversible",
    "Verif.Boson.iterate_reversible",
    "Verif.Boson.along_add",
    "Verif.Boson.along_verlet",
    "Verif.Boson.shadow_verlet",
    "Verif.Boson.shadow_iterate",
    "Verif.Boson.along_revert"
   ],
   "note": "The statements about drift, reversibility, modes and momenta are proved for every positive number of small steps; false are the behaviour for a negative number (negative_freezes) and the use of dynamical masses (scaled_mass_ignored, drift_nonzero)."
  },
  {
   "property": "C169",
   "status": "partial",
   "theorems": [
    "Verif.BatchRes.unknown_property_fails",
    "Verif.BatchRes.mean_of_models",
    "Verif.BatchRes.batches_irrelevant",
    "Verif.BatchRes.missing_rows_noticed",
    "Verif.BatchRes.extra_rows_lost",
    "Verif.BatchRes.missing_property_fails",
    "Verif.BatchRes.mapM_ok",
    "Verif.BatchRes.pieces_eq",
    "Verif.BatchRes.length_flatten_eq",
    "Verif.BatchRes.fixed_column",
    "Verif.BatchRes.column_eq",
    "Verif.BatchRes.store_eq",
    "Verif.BatchRes.lookup_map",
    "Verif.BatchRes.addD_eq",
    "Verif.BatchRes.fold_eq",
    "Verif.BatchRes.foldl_zip",
    "Verif.BatchRes.meanS_eq",
    "Verif.BatchRes.zipIdx_mapM",
    "Verif.BatchRes.pieces_extra"
   ],
   "note": "Proved for models that treat the structures of a batch independently and give the same properties (mean_of_models, batches_irrelevant). Too few rows are refused (missing_rows_noticed), too many are not (extra_rows_lost)."
  },
  {
   "property": "C170",
   "status": "partial",
   "theorems": [
    "Verif.FComp.forces_total",
    "Verif.FComp.pot_component_average",
    "Verif.FComp.forces_component_average",
    "Verif.FComp.vir_component_average",
    "Verif.FComp.raw_averages",
    "Verif.FComp.raw_potential_scaled",
    "Verif.FComp.raw_potential_partial",
    "Verif.FComp.raw_potential_wrong",
    "Verif.FComp.raw_bead",
    "Verif.FComp.contributions_add_up_partial",
    "Verif.FComp.raw_do_not_add_up",
    "Verif.FComp.component_index",
    "Verif.FComp.apply_smul",
    "Verif.FComp.b2tob1One_smul",
    "Verif.FComp.b2tob1_smul",
    "Verif.FComp.pyGet_nat",
    "Verif.FComp.pots_weighted",
    "Verif.FComp.forces_weighted",
    "Verif.FComp.virs_weighted",
    "Verif.FComp.pots_raw",
    "Verif.FComp.forces_raw",
    "Verif.FComp.virs_raw",
    "Verif.FComp.foldl_add",
    "Verif.FComp.addUp_ok",
    "Verif.FComp.comps_range",
    "Verif.FComp.combine_sum"
   ],
   "note": "Proved for all outputs but pot_component_raw, which is wrong for contracted components (raw_potential_wrong, raw_potential_partial); the sum rule needs level weights that add up to one (contributions_add_up_partial)."
  },
  {
   "property": "C171",
   "status": "partial",
   "theorems": [
    "Verif.DriverOpts.other_names",
    "Verif.DriverOpts.options_read",
    "Verif.DriverOpts.no_options",
    "Verif.DriverOpts.parameters_set",
    "Verif.DriverOpts.refused_iff",
    "Verif.DriverOpts.unknown_option_ignored",
    "Verif.DriverOpts.unknown_name",
    "Verif.DriverOpts.texts_changed",
    "Verif.DriverOpts.lookup_insert",
    "Verif.DriverOpts.mem_strip",
    "Verif.DriverOpts.readValue_strip",
    "Verif.DriverOpts.step_pos",
    "Verif.DriverOpts.strip_key",
    "Verif.DriverOpts.step_key",
    "Verif.DriverOpts.text_comma",
    "Verif.DriverOpts.fold_items",
    "Verif.DriverOpts.fill_ok",
    "Verif.DriverOpts.fill_error",
    "Verif.DriverOpts.any_lookup",
    "Verif.DriverOpts.lastFor_other"
   ],
   "note": "Proved for texts without commas and stray equals signs (options_read, parameters_set, refused_iff). Names the driver does not know are not refused (unknown_name)."
  },
  {
   "property": "C172",
   "status": "partial",
   "theorems": [
    "Verif.XmlEdit.edit_correct",
    "Verif.XmlEdit.hit_full",
    "Verif.XmlEdit.hit_one",
    "Verif.XmlEdit.removed",
    "Verif.XmlEdit.mode_checked_late",
    "Verif.XmlEdit.empty_path",
    "Verif.XmlEdit.chains_append",
    "Verif.XmlEdit.chain_ne",
    "Verif.XmlEdit.chains_ne",
    "Verif.XmlEdit.within_cons",
    "Verif.XmlEdit.within_other",
    "Verif.XmlEdit.within_full_other",
    "Verif.XmlEdit.within_nil",
    "Verif.XmlEdit.within_empty",
    "Verif.XmlEdit.lift",
    "Verif.XmlEdit.kept_append",
    "Verif.XmlEdit.added_append",
    "Verif.XmlEdit.good_lift",
    "Verif.XmlEdit.editKid_good",
    "Verif.XmlEdit.editKids_good"
   ],
   "note": "Proved for the three kinds of edit (edit_correct, removed). An unknown kind is refused only if the path is found (mode_checked_late). Tags that python holds as one object in several places are not modelled."
  },
  {
   "property": "C173",
   "status": "partial",
   "theorems": [
    "Verif.Ase.results",
    "Verif.Ase.forces_are_gradient",
    "Verif.Ase.virial_is_derivative",
    "Verif.Ase.no_stress_refused",
    "Verif.Ase.no_energy_no_forces",
    "Verif.Ase.wrong_template",
    "Verif.Ase.table_units",
    "Verif.Ase.checked_tensor",
    "Verif.Ase.energy_eq",
    "Verif.Ase.sq_deriv"
   ],
   "note": "Proved for calculators with a stress and structures of the size of the template (results, virial_is_derivative); the forces are exact derivatives if the unit ev/ang is the quotient of the two other units (forces_are_gradient), which the table meets to seven digits (table_units)."
  },
  {
   "property": "C174",
   "status": "partial",
   "theorems": [
    "Verif.EffTemp.readRow_some",
    "Verif.EffTemp.readRow_none",
    "Verif.EffTemp.loop_spec",
    "Verif.EffTemp.eff_eq",
    "Verif.EffTemp.effective_temperature",
    "Verif.EffTemp.never_below",
    "Verif.EffTemp.incomplete_ignored",
    "Verif.EffTemp.order_of_files",
    "Verif.EffTemp.harmonic",
    "Verif.EffTemp.skipped_all",
    "Verif.EffTemp.nothing_to_average"
   ],
   "note": "Proved whenever frames are left after the skipped ones. If more frames are skipped than there are, the simulation temperature is printed without a message (skipped_all); with exactly as many, nan; without frames or files an exception (nothing_to_average)."
  },
  {
   "property": "C175",
   "status": "partial",
   "theorems": [
    "Verif.F90.mem_allPairs",
    "Verif.F90.build_spec",
    "Verif.F90.part_found",
    "Verif.F90.pairs_eq",
    "Verif.F90.dnint_eq",
    "Verif.F90.half_lt",
    "Verif.F90.sep_unique",
    "Verif.F90.sep_lattice",
    "Verif.F90.moved_little",
    "Verif.F90.runNb_fixed",
    "Verif.F90.complete_fixed",
    "Verif.F90.foldl_near",
    "Verif.F90.history_fixed",
    "Verif.F90.missing_pair",
    "Verif.F90.missing_after_refresh"
   ],
   "note": "Proved for histories in one cell at least 2.4 cut-offs wide. When the cell changes the cut-off is scaled with the volume while the lists keep the old radius: pairs within the cut-off are missing (missing_pair), also right after the lists have been made again, because the radius is changed after that (missing_after_refresh)."
  },
  {
   "property": "C176",
   "status": "proved",
   "theorems": [
    "Verif.F90.fold_pot",
    "Verif.F90.fold_forces",
    "Verif.F90.fold_virial",
    "Verif.F90.hasDerivAt_pair",
    "Verif.F90.pair_derivative",
    "Verif.F90.forces_gradient",
    "Verif.F90.forces_sum_zero",
    "Verif.F90.sep_strain",
    "Verif.F90.volume_strain",
    "Verif.F90.pair_strain",
    "Verif.F90.virial_strain",
    "Verif.F90.lj_potential",
    "Verif.F90.lj_derivative",
    "Verif.F90.ljLongrange_consistent",
    "Verif.F90.lj_forces",
    "Verif.F90.sgExp_derivative",
    "Verif.F90.sgDamp_derivative",
    "Verif.F90.sg_derivative",
    "Verif.F90.sgLongrange_consistent",
    "Verif.F90.sg_forces",
    "Verif.F90.sg_volume",
    "Verif.F90.lj_virial",
    "Verif.F90.sg_virial",
    "Verif.F90.driver_sumAll"
   ],
   "note": "The virial of Silvera-Goldman is for upper triangular cells with positive diagonal, which is what the engine sends: the driver takes the product of the diagonal as the volume."
  },
  {
   "property": "C177",
   "status": "partial",
   "theorems": [
    "Verif.F90.mix_like_partial",
    "Verif.F90.mix_unlike",
    "Verif.F90.mix_forces"
   ],
   "note": "Right for pairs of the same type. Both tests in the code are about the first atom of the pair, which has the smaller number, so that a pair of different types interacts like two atoms of the second type (mix_unlike)."
  },
  {
   "property": "C178",
   "status": "partial",
   "theorems": [
    "Verif.F90.efield_neutral",
    "Verif.F90.leps_no_force",
    "Verif.F90.leps_ring",
    "Verif.F90.moved_eq",
    "Verif.F90.harm_gradient",
    "Verif.F90.harm_virial_partial",
    "Verif.F90.harm_virial_shear",
    "Verif.F90.harm3d_eq",
    "Verif.F90.harm3d_gradient",
    "Verif.F90.harm3d_virial",
    "Verif.F90.linear_gradient",
    "Verif.F90.morse_gradient",
    "Verif.F90.morsedia_gradient",
    "Verif.F90.doublewell_gradient",
    "Verif.F90.doublewell1D_gradient_partial",
    "Verif.F90.doublewell1D_last",
    "Verif.F90.doublewell1D_forces",
    "Verif.F90.doublewell1D_several",
    "Verif.F90.eckart_gradient",
    "Verif.F90.muellerBrown_gradient",
    "Verif.F90.muellerBrown_scaling",
    "Verif.F90.noo3_gradient",
    "Verif.F90.efield_pot",
    "Verif.F90.efield_forces",
    "Verif.F90.efield_flipped",
    "Verif.F90.efield_gradient_false",
    "Verif.F90.efield_virial",
    "Verif.F90.friction_partial",
    "Verif.F90.friction_two_unset",
    "Verif.F90.friction_outside",
    "Verif.F90.leps_flipped",
    "Verif.F90.leps_uphill"
   ],
   "note": "Proved for harm, harm3d, linear, morse, morsedia, eckart, MB, doublewell and noo3-h2o. Refuted for qtip4pf-efield (sign), doublewell_1D with several atoms, lepsm1 (sign and size), the shear of harm, and the friction with a number of atoms other than one or three."
  },
  {
   "property": "C179",
   "status": "partial",
   "theorems": [
    "Verif.F90.bonded_iff_partial",
    "Verif.F90.bonded_single",
    "Verif.F90.polymer_split",
    "Verif.F90.bonds_fold",
    "Verif.F90.bond_derivative",
    "Verif.F90.polymer_driver",
    "Verif.F90.polymer_virial",
    "Verif.F90.polymer_virial_junk"
   ],
   "note": "Bonds: proved for chains of two monomers or more, refuted for chains of one. Energy and forces: proved. Virial: proved up to a term made of variables that are never set, and refuted because of that term."
  },
  {
   "property": "C180",
   "status": "partial",
   "theorems": [
    "Verif.F90.addLj_plus",
    "Verif.F90.ljGetall_times",
    "Verif.F90.committee_json",
    "Verif.F90.message_virial",
    "Verif.F90.extra_virial",
    "Verif.F90.extra_virial_partial",
    "Verif.F90.extra_virial_lost"
   ],
   "note": "Members and mean: proved. Virial read from the extra string: proved for symmetric virials, refuted otherwise, together with what is lost."
  },
  {
   "property": "C181",
   "status": "partial",
   "theorems": [
    "Verif.F90.Opts.start_parameters_set_partial",
    "Verif.F90.Opts.asks_init_iff",
    "Verif.F90.Opts.potential_by_name_partial",
    "Verif.F90.Opts.atoms_not_checked",
    "Verif.F90.Opts.pars_read",
    "Verif.F90.Opts.pars_overflow",
    "Verif.F90.Opts.command_line",
    "Verif.F90.Opts.order_irrelevant",
    "Verif.F90.Opts.nonsense_refused",
    "Verif.F90.Opts.count_checked_partial",
    "Verif.F90.Opts.morse_parameters",
    "Verif.F90.Opts.morse_unset",
    "Verif.F90.Opts.count_ignored",
    "Verif.F90.Opts.baths_deprecated",
    "Verif.F90.Opts.parameters_set_partial",
    "Verif.F90.Opts.morse_defaults"
   ],
   "note": "Options and their order: proved. Numbers of parameters: proved but for the Morse, committee, noo3-h2o and water_dip_pol potentials, where it is refuted. How Fortran reads numbers is a parameter."
  },
  {
   "property": "C182",
   "status": "partial",
   "theorems": [
    "Verif.PesReg.walk_levels",
    "Verif.PesReg.scan_last",
    "Verif.PesReg.scan_toplevel_partial",
    "Verif.PesReg.scan_toplevel_fails",
    "Verif.PesReg.scan_half",
    "Verif.PesReg.drivers_lookup",
    "Verif.PesReg.drivers_sorted",
    "Verif.PesReg.drivers_fail_iff",
    "Verif.PesReg.load_invalid_iff",
    "Verif.PesReg.load_registered",
    "Verif.PesReg.load_custom",
    "Verif.PesReg.missing_class_partial",
    "Verif.PesReg.missing_class_custom"
   ],
   "note": "The parts about the table and the selection hold as stated. Three documented details fail and are refuted: strings given below the top level are taken too and win; a file with one of the strings gives that one; a custom file without a class ends in an UnboundLocalError."
  },
  {
   "property": "C183",
   "status": "partial",
   "theorems": [
    "Verif.DrvDipole.copy_lookup",
    "Verif.DrvDipole.user_kept",
    "Verif.DrvDipole.default_filled",
    "Verif.DrvDipole.user_blocks",
    "Verif.DrvDipole.no_options",
    "Verif.DrvDipole.settings_partial",
    "Verif.DrvDipole.settings_fail",
    "Verif.DrvDipole.few_arguments",
    "Verif.DrvDipole.two_arguments",
    "Verif.DrvDipole.dipole_file_alone",
    "Verif.DrvDipole.dipole_file_misreported",
    "Verif.DrvDipole.off_iff",
    "Verif.DrvDipole.evaluation",
    "Verif.DrvDipole.cell_refused",
    "Verif.DrvDipole.restart_keeps"
   ],
   "note": "The merging of defaults and the evaluation hold as stated. Refuted: a dipole file without a file for the Born charges stops the driver, restart removes nothing, and too few arguments end in an AttributeError; a value in place of a dictionary hides the defaults below it and stops the driver."
  },
  {
   "property": "C184",
   "status": "proved",
   "theorems": [
    "Verif.Ppi.f2_fast",
    "Verif.Ppi.kPa_fast",
    "Verif.Ppi.exchange",
    "Verif.Ppi.kVir_fast",
    "Verif.Ppi.add_fast",
    "Verif.Ppi.rows_fast",
    "Verif.Ppi.scripts_fast",
    "Verif.Ppi.order_irrelevant"
   ],
   "note": "Exact real numbers; the loops of the scripts are those of C161."
  },
  {
   "property": "C185",
   "status": "partial",
   "theorems": [
    "Verif.RdfPpi.bin_iff",
    "Verif.RdfPpi.bin_lt",
    "Verif.RdfPpi.pair_step",
    "Verif.RdfPpi.frame_counts",
    "Verif.RdfPpi.count_total",
    "Verif.RdfPpi.acc_sum",
    "Verif.RdfPpi.frames_used",
    "Verif.RdfPpi.short_nothing",
    "Verif.RdfPpi.used_all_partial",
    "Verif.RdfPpi.tail_ignored",
    "Verif.RdfPpi.shell_pos",
    "Verif.RdfPpi.shell_edges",
    "Verif.RdfPpi.rdf_mean",
    "Verif.RdfPpi.rdf_total",
    "Verif.RdfPpi.correction",
    "Verif.RdfPpi.pairs_length",
    "Verif.RdfPpi.no_self"
   ],
   "note": "That all frames enter is refuted: the files are written at multiples of one hundred frames only, so that a shorter trajectory gives nothing and up to ninety nine frames at the end are lost (`short_nothing`, `tail_ignored`); it holds for multiples of one hundred (`used_all_partial`). Exact real numbers; the closest image and the squared forces of a frame are free."
  },
  {
   "property": "C186",
   "status": "partial",
   "theorems": [
    "Verif.Verb.set_ok",
    "Verif.Verb.shown_eq",
    "Verif.Verb.printed_iff",
    "Verif.Verb.nested",
    "Verif.Verb.invalid",
    "Verif.Verb.locked_stays",
    "Verif.Verb.locked_no_error",
    "Verif.Verb.level_bound",
    "Verif.Verb.stored_same",
    "Verif.Verb.trace_lost",
    "Verif.Verb.load_iff",
    "Verif.Verb.load_prints",
    "Verif.Verb.no_trace",
    "Verif.Verb.last_wins",
    "Verif.Verb.reports_iff",
    "Verif.Verb.timings_complete"
   ],
   "note": "That every level can be given and comes back is refuted for the highest one, `trace`: it is neither an option of the input file nor of the command line (`no_trace`), and if set from python the restart file has `debug` (`trace_lost`). That an invalid value is an error is refuted while the level is locked (`locked_no_error`). All else is proved."
  },
  {
   "property": "C187",
   "status": "partial",
   "theorems": [
    "Verif.Pes.dw_bath_fails",
    "Verif.Pes.ddw_fails",
    "Verif.Pes.ddw_names_fail",
    "Verif.Pes.omega_pos",
    "Verif.Pes.reorganization",
    "Verif.Pes.well_force",
    "Verif.Pes.bath_force_any",
    "Verif.Pes.dw_bath_partial",
    "Verif.Pes.ddw_partial",
    "Verif.Pes.coupling_not_square",
    "Verif.Pes.well_depth"
   ],
   "note": "Refuted: both potentials fail for every structure, as the class of the bath has no `__call__` (`dw_bath_fails`) and the second gives its parameters as one argument (`ddw_fails`, `ddw_names_fail`); the coupling of the wells is not the documented one (`coupling_not_square`). `dw_bath_partial` and `ddw_partial` prove that energy and forces belong together once the bath can be called; `well_depth` is for no shift."
  },
  {
   "property": "C188",
   "status": "partial",
   "theorems": [
    "Verif.GasDrv.batch_separate",
    "Verif.GasDrv.batch_mismatch",
    "Verif.GasDrv.gas_single",
    "Verif.GasDrv.gas_separate_iff",
    "Verif.GasDrv.gas_wrong_size",
    "Verif.GasDrv.gas_empty"
   ],
   "note": "Proved for the base class. For the ideal gas `gas_separate_iff` gives the exact condition: there is a structure and all have the same number of atoms; `gas_wrong_size` and `gas_empty` are the counterexamples. What is done with one cell and a list of positions is left out, and so is the sharing of memory between the results of the ideal gas."
  }
 ]
}