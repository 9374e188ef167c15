{
 "claims": [
  {
   "property": "C01",
   "status": "proved",
   "theorems": [
    "Verif.C01_hex_length",
    "Verif.C01_hex_alphabet",
    "Verif.C01_hex_roundtrip"
   ],
   "note": ""
  },
  {
   "property": "C02",
   "status": "proved",
   "theorems": [
    "Verif.C02_base32_length",
    "Verif.C02_base32_alphabet",
    "Verif.C02_base32_roundtrip"
   ],
   "note": ""
  },
  {
   "property": "C03",
   "status": "proved",
   "theorems": [
    "Verif.C03_hex_injective",
    "Verif.C03_base32_injective",
    "Verif.C03_string_injective",
    "Verif.C03_hex_ne_base32"
   ],
   "note": ""
  },
  {
   "property": "C04",
   "status": "proved",
   "theorems": [
    "Verif.C04_hex_decode_iff",
    "Verif.C04_hex_decode_total"
   ],
   "note": ""
  },
  {
   "property": "C05",
   "status": "partial",
   "theorems": [
    "Verif.C05_base32_decode_sound",
    "Verif.C05_base32_decode_complete",
    "Verif.C05_base32_decode_iff",
    "Verif.C05_base32_no_panic_partial",
    "Verif.C05_violated_iff",
    "Verif.C05_violated_newline",
    "Verif.C05_violated_ff",
    "Verif.UID.C05_violated_exactly"
   ],
   "note": "Which texts decode to which ID is exact (C05_base32_decode_iff). The code violates the no-panic half; C05_violated_exactly lists the texts on which it panics."
  },
  {
   "property": "C06",
   "status": "partial",
   "theorems": [
    "Verif.C06_hash_leading_bytes_partial",
    "Verif.C06_violated_short"
   ],
   "note": "Proved for digests of at least 16 bytes. A shorter digest panics (C06_violated_short)."
  },
  {
   "property": "C07",
   "status": "proved",
   "theorems": [
    "Verif.C07_draws_recoverable",
    "Verif.C07_new_injective",
    "Verif.C07_new_surjective"
   ],
   "note": "Bijection between draws of the random source (math/rand) and IDs; how good the source is shows in C32 and Go/Rand."
  },
  {
   "property": "C08",
   "status": "proved",
   "theorems": [
    "Verif.C08_single_rooted_tree",
    "Verif.C08_children_iff_parent",
    "Verif.C08_one_parent",
    "Verif.C08_calls_end",
    "Verif.C08_duplicate_id_breaks_tree"
   ],
   "note": "For nodes added once, with a new ID (Op.Legal); C08_duplicate_id_breaks_tree shows the duty is needed."
  },
  {
   "property": "C09",
   "status": "proved",
   "theorems": [
    "Verif.C09_add_child",
    "Verif.C09_add_root",
    "Verif.C09_add_refused",
    "Verif.C09_root_stable",
    "Verif.C09_nodes_stable"
   ],
   "note": ""
  },
  {
   "property": "C10",
   "status": "proved",
   "theorems": [
    "Verif.C10_add_tag",
    "Verif.C10_add_tag_unknown",
    "Verif.C10_delete_tag"
   ],
   "note": ""
  },
  {
   "property": "C11",
   "status": "proved",
   "theorems": [
    "Verif.C11_add_branch",
    "Verif.C11_add_branch_unknown",
    "Verif.C11_delete_branch"
   ],
   "note": ""
  },
  {
   "property": "C12",
   "status": "proved",
   "theorems": [
    "Verif.C12_update_branch_iff",
    "Verif.C12_update_branch_effect",
    "Verif.C12_update_branch_ends"
   ],
   "note": ""
  },
  {
   "property": "C13",
   "status": "proved",
   "theorems": [
    "Verif.C13_no_dangling"
   ],
   "note": ""
  },
  {
   "property": "C14",
   "status": "partial",
   "theorems": [
    "Verif.C14_violated_exactly",
    "Verif.C14_search_id",
    "Verif.C14_search_names",
    "Verif.C14_violated_newline"
   ],
   "note": "Exact for every key on which base32 decoding does not panic (PlainKey); C14_violated_exactly: Search panics on exactly the other keys."
  },
  {
   "property": "C15",
   "status": "proved",
   "theorems": [
    "Verif.C15_load_dump",
    "Verif.C15_dump_exists",
    "Verif.C15_dump_loop",
    "Verif.C15_cycles",
    "Verif.C15_order_irrelevant"
   ],
   "note": "Every iteration order; the level loop of Dump is modelled with a memory of cells (C15_dump_loop)."
  },
  {
   "property": "C16",
   "status": "partial",
   "theorems": [
    "Verif.C16_load_total",
    "Verif.C16_load_iff_partial",
    "Verif.C16_load_content_partial",
    "Verif.C16_load_empty",
    "Verif.C16_violated_duplicate"
   ],
   "note": "Load never panics or hangs on any dump, and for dumps without repeated IDs it succeeds exactly when all references resolve and gives a well-formed tree. Dumps with repeated IDs load to a broken tree (C16_violated_duplicate)."
  },
  {
   "property": "C17",
   "status": "partial",
   "theorems": [
    "Verif.C17_save_load_partial",
    "Verif.C17_comes_back",
    "Verif.C17_utf8_iff",
    "Verif.C17_saves",
    "Verif.C17_violated_lost",
    "Verif.C17_violated_merged",
    "Verif.C17_info_roundtrip"
   ],
   "note": "Equality to the byte is proved for valid UTF-8 (C17_save_load_partial); C17_comes_back characterises what comes back for all texts. The code violates the rest: names in other encodings change, vanish or merge (C17_violated_*)."
  },
  {
   "property": "C18",
   "status": "proved",
   "theorems": [
    "Verif.C18_torn_detected",
    "Verif.C18_read_error",
    "Verif.C18_never_misread",
    "Verif.C18_info_torn"
   ],
   "note": "Every strict prefix of a saved file; torn writes that leave other bytes (file system block reordering) are not prefixes and not covered."
  },
  {
   "property": "C19",
   "status": "partial",
   "theorems": [
    "Verif.C19_loads_iff_partial",
    "Verif.C19_small_loads",
    "Verif.C19_violated_depth",
    "Verif.C19_chain_loads"
   ],
   "note": "A saved tree loads exactly when it is Shallow (C19_loads_iff_partial). The code violates the rest: chains of more than 5000 layers save but never load (C19_violated_depth)."
  },
  {
   "property": "C20",
   "status": "partial",
   "theorems": [
    "Verif.C20_full_name_injective",
    "Verif.C20_parse_full_name_partial",
    "Verif.C20_violated_newline",
    "Verif.C20_parse_total",
    "Verif.C20_parse_sound",
    "Verif.C20_local_name",
    "Verif.C20_local_readings"
   ],
   "note": "A name containing a line feed is not parsed back (C20_violated_newline); for every other name the round trip is proved, full names are injective for all names, and the parser never crashes."
  },
  {
   "property": "C21",
   "status": "partial",
   "theorems": [
    "Verif.C21_reachable_names",
    "Verif.Ws.C21_all_branches_partial",
    "Verif.Ws.C21_local_branches_partial",
    "Verif.Ws.C21_remote_branches_partial",
    "Verif.Ws.C21_isolated",
    "Verif.Ws.C21_violated_newline",
    "Verif.Ws.C21_names_stay_proper"
   ],
   "note": "Exactness, isolation, order and determinism are proved for all names without a line feed; a branch whose name has a line feed exists but is never listed (C21_violated_newline)."
  },
  {
   "property": "C22",
   "status": "proved",
   "theorems": [
    "Verif.Ws.C22_tags"
   ],
   "note": "For every well-formed tree and every iteration order."
  },
  {
   "property": "C23",
   "status": "proved",
   "theorems": [
    "Verif.Ws.C23_history",
    "Verif.Ws.C23_history_members"
   ],
   "note": "For every reference on which decoding an ID does not crash; on the others Search crashes (C26_search_crashes_iff)."
  },
  {
   "property": "C24",
   "status": "proved",
   "theorems": [
    "Verif.C24_refused",
    "Verif.C24_accepted_iff",
    "Verif.Ws.C24_add_branch",
    "Verif.Ws.C24_add_tag"
   ],
   "note": "On the tree (Ws.C24_*) and for whole commands: C24_accepted_iff, and C24_refused for the disk."
  },
  {
   "property": "C25",
   "status": "proved",
   "theorems": [
    "Verif.Ws.C25_checked_out",
    "Verif.Ws.C25_delete_branch",
    "Verif.Ws.C25_confined"
   ],
   "note": ""
  },
  {
   "property": "C26",
   "status": "proved",
   "theorems": [
    "Verif.C26_search_crashes_iff",
    "Verif.Ws.C26_search"
   ],
   "note": "C26_search for the references on which decoding an ID does not crash; C26_search_crashes_iff for the others."
  },
  {
   "property": "C27",
   "status": "proved",
   "theorems": [
    "Verif.C27_commit_effect",
    "Verif.C27_commit_keeps_files"
   ],
   "note": "For every history of commands without I/O errors and every later commit, whatever faults occur in it."
  },
  {
   "property": "C28",
   "status": "proved",
   "theorems": [
    "Verif.C28_accepted_iff",
    "Verif.C28_refused"
   ],
   "note": "For every history of commands without I/O errors; the commit itself without I/O errors."
  },
  {
   "property": "C29",
   "status": "partial",
   "theorems": [
    "Verif.C29_violated_on_branch",
    "Verif.C29_detached_partial",
    "Verif.C29_detached_commits"
   ],
   "note": "Violated for every clone of a workspace that is on a branch (C29_violated_on_branch). Proved for clones of detached workspaces (C29_detached_partial, C29_detached_commits)."
  },
  {
   "property": "C30",
   "status": "partial",
   "theorems": [
    "Verif.C30_own_branch",
    "Verif.C30_next_commit",
    "Verif.C30_violated_full_name",
    "Verif.C30_violated_refused"
   ],
   "note": "Proved for branches named by their own short name (C30_own_branch, C30_next_commit). Violated for full names (C30_violated_full_name). The origin/ half of the statement cannot arise: no history has a global branch (C60)."
  },
  {
   "property": "C31",
   "status": "proved",
   "theorems": [
    "Verif.C31_append_only"
   ],
   "note": "For every reachable disk and every later history without io faults. Only the node of a current working layer may gain a message and date."
  },
  {
   "property": "C32",
   "status": "partial",
   "theorems": [
    "Verif.C32_commit_layer",
    "Verif.C32_commit_frozen",
    "Verif.C32_violated_commit",
    "Verif.C32_violated_killed",
    "Verif.C32_layer_frozen_partial",
    "Verif.C32_idle_frozen",
    "Verif.C32_content_frozen_partial",
    "Verif.C32_violated_busy"
   ],
   "note": "Proved for every commit that succeeded: from any disk that commands can leave, in every later execution (any number of commands at once, failures, kills, writes), its layer never changes (C32_commit_layer) and, if no layer below it was a working layer, neither do its files (C32_commit_frozen). C32_violated_commit: any accepted commit on a busy mount is recorded while all its files are deleted. C32_violated_killed: any commit that would succeed can be killed so that it is recorded while the workspace goes on writing into its layer."
  },
  {
   "property": "C33",
   "status": "proved",
   "theorems": [
    "Verif.C33_checkout_restores"
   ],
   "note": "For commits none of whose layers was a working layer of some workspace when it was checked out or changed; the exception is part of C32."
  },
  {
   "property": "C34",
   "status": "proved",
   "theorems": [
    "Verif.C34_clone"
   ],
   "note": ""
  },
  {
   "property": "C35",
   "status": "partial",
   "theorems": [
    "Verif.C35_isolated_partial",
    "Verif.C35_steady_partial",
    "Verif.C35_violated_checkout",
    "Verif.C35_write_partial",
    "Verif.C35_violated_shared",
    "Verif.C35_own_layer_partial"
   ],
   "note": "Proved unless the working layer of one workspace is in the history of the other (C35_isolated_partial, C35_steady_partial). C35_violated_checkout: checking out the ID of another workspace's working layer is accepted, and then everything written there shows."
  },
  {
   "property": "C36",
   "status": "proved",
   "theorems": [
    "Verif.C36_reachable",
    "Verif.C36_upper_unique",
    "Verif.C36_upper_new",
    "Verif.C36_mount_fresh"
   ],
   "note": "Invariant over all interleavings, crash points, I/O failures and random choices (Verif.World.PoolInv)."
  },
  {
   "property": "C37",
   "status": "proved",
   "theorems": [
    "Verif.C37_mount_new",
    "Verif.C37_too_few",
    "Verif.C37_stack",
    "Verif.C37_missing_layer"
   ],
   "note": "Layer walk and mounts.New: upper is the new node's layer, lowers are the proper ancestors, nearest first; missing layer or root node gives an error."
  },
  {
   "property": "C38",
   "status": "partial",
   "theorems": [
    "Verif.C38_options_partial",
    "Verif.C38_violated_comma",
    "Verif.C38_violated_colon",
    "Verif.C38_violated_backslash"
   ],
   "note": "Proved for data roots without comma, colon and backslash while the string fits. Violated for each of the three bytes, with witnesses."
  },
  {
   "property": "C39",
   "status": "partial",
   "theorems": [
    "Verif.C39_length",
    "Verif.C39_fits_iff_partial",
    "Verif.C39_violated_depth",
    "Verif.C39_default_root",
    "Verif.C39_violated_meaning"
   ],
   "note": "Exact length and exact fitting condition proved. Violated: from 98 lower layers on at every data root (66 at the default one) the string is cut and the kernel does not read the meant work directory."
  },
  {
   "property": "C40",
   "status": "partial",
   "theorems": [
    "Verif.Layer.C40_create",
    "Verif.Layer.C40_get",
    "Verif.Layer.C40_list",
    "Verif.Layer.C40_list_foreign",
    "Verif.Layer.C40_get_foreign",
    "Verif.Layer.C40_delete",
    "Verif.Layer.C40_history_partial",
    "Verif.Layer.C40_none_missing",
    "Verif.Layer.C40_violated_half",
    "Verif.Layer.C40_violated_alias",
    "Verif.Layer.C40_violated_panic"
   ],
   "note": "Exact listing for every history in which no Create failed between making the directory and writing the diff; the violations of the full statement are proved."
  },
  {
   "property": "C41",
   "status": "proved",
   "theorems": [
    "Verif.C41_violated_forever",
    "Verif.C41_commit",
    "Verif.C41_checkout",
    "Verif.C41_clone",
    "Verif.C41_edit",
    "Verif.C41_init",
    "Verif.C41_closed",
    "Verif.C41_content",
    "Verif.C41_violated_truncated"
   ],
   "note": "Every command, every point at which it can be killed, torn writes included. C41_violated_truncated proves that the stronger wish in the statement fails: killing any branch or tag change after the truncation makes every workspace of the space unopenable; C41_violated_forever: it stays so in every later execution."
  },
  {
   "property": "C42",
   "status": "proved",
   "theorems": [
    "Verif.C42_commit",
    "Verif.C42_checkout",
    "Verif.C42_clone",
    "Verif.C42_init"
   ],
   "note": "Covers every error returned before the tree is saved, under every combination of faults."
  },
  {
   "property": "C43",
   "status": "partial",
   "theorems": [
    "Verif.C43_violated_clash",
    "Verif.C43_violated_tags",
    "Verif.C43_violated_overlap",
    "Verif.C43_sequential"
   ],
   "note": "C43_sequential proves the statement for commits one after the other. C43_violated_overlap proves that it is false for overlapping commits, for every reachable state and every two workspaces of a space that may commit. C43_violated_clash and C43_violated_tags: two branch or tag commands whose texts differ in length destroy the space for good while both report success."
  },
  {
   "property": "C44",
   "status": "partial",
   "theorems": [
    "Verif.C44_leads_to_iff",
    "Verif.C44_mount_path",
    "Verif.C44_otherwise_error",
    "Verif.C44_lexical",
    "Verif.C44_violated_exactly",
    "Verif.C44_violated_newline"
   ],
   "note": "Proved: resolution succeeds exactly for the mount points, symlinks to them and what lies below, is lexical, and fails otherwise. Violated: a path component with a line feed directly below mounts crashes the decoder (C44_violated_newline); C44_violated_exactly gives all such paths."
  },
  {
   "property": "C45",
   "status": "partial",
   "theorems": [
    "Verif.C45_violated_init",
    "Verif.C45_init",
    "Verif.C45_clone_partial",
    "Verif.C45_violated_clone"
   ],
   "note": "Proved for init unless looking at the path fails; C45_violated_init shows that it then replaces a file. C45_violated_clone proves that clone replaces a regular file at the target in every reachable state, so the statement is false for clone; C45_clone_partial is what does hold."
  },
  {
   "property": "C46",
   "status": "partial",
   "theorems": [
    "Verif.C46_root_partial",
    "Verif.C46_violated_delete",
    "Verif.C46_violated_move"
   ],
   "note": "Proved for histories without tag -d ROOT and tag -f ROOT. Those violate it (C46_violated_delete, C46_violated_move)."
  },
  {
   "property": "C47",
   "status": "partial",
   "theorems": [
    "Verif.Prep.C47_ready",
    "Verif.Prep.C47_only_makes",
    "Verif.Prep.C47_succeeds",
    "Verif.Prep.C47_idempotent",
    "Verif.Prep.C47_once",
    "Verif.Prep.C47_violated_retry",
    "Verif.Prep.C47_violated_nothing_there",
    "Verif.Prep.C47_race"
   ],
   "note": "A Prepare that succeeds leaves all directories in place, makes nothing else, runs its work once and is idempotent. The claim that success means ready fails after a failed first attempt in the same process: C47_violated_retry."
  },
  {
   "property": "C48",
   "status": "partial",
   "theorems": [
    "Verif.Sig.C48_first_cancels",
    "Verif.Sig.C48_only_by_signal",
    "Verif.Sig.C48_exit_code",
    "Verif.Sig.C48_violated_second",
    "Verif.Sig.C48_violated_cancelled",
    "Verif.Sig.C48_second_not_lost_partial",
    "Verif.Sig.C48_second_partial",
    "Verif.Sig.C48_single_signal_exit"
   ],
   "note": "The first half (the first interrupt cancels the command's context, and nothing but a signal does) is proved: C48_first_cancels, C48_only_by_signal. The second half fails: C48_violated_second and C48_violated_cancelled show executions in which a second interrupt is swallowed; C48_second_partial says when it does end the process."
  },
  {
   "property": "C49",
   "status": "partial",
   "theorems": [
    "Verif.Ws.C49_log_panics_iff",
    "Verif.Ws.C49_log_unknown",
    "Verif.C49_violated_working_layer",
    "Verif.C49_violated_after_checkout",
    "Verif.C49_log_partial"
   ],
   "note": "C49_log_panics_iff decides exactly when the log panics. C49_log_partial proves that it never does if commits are dated by the program and nothing but commits is named by its ID. The full claim is false: C49_violated_working_layer and C49_violated_after_checkout show two short histories in which log panics."
  },
  {
   "property": "C50",
   "status": "partial",
   "theorems": [
    "Verif.Ws.C50_history",
    "Verif.Ws.C50_printed",
    "Verif.Ws.C50_output",
    "Verif.C50_commit_partial",
    "Verif.C50_stays",
    "Verif.C50_violated_utf8",
    "Verif.Time.C50_date_round_trip"
   ],
   "note": "Proved for the date to the minute of its offset (Time.C50_date_round_trip) and for messages in valid UTF-8 (C50_commit_partial, C50_stays, C50_history). The full claim is false: C50_violated_utf8. RFC 3339 formatting and parsing are modelled from the documentation of the Go library; inputs that the strict parser refuses are a parameter."
  },
  {
   "property": "C51",
   "status": "proved",
   "theorems": [
    "Verif.Locks.C51_no_deadlock",
    "Verif.Locks.C51_exclusive",
    "Verif.Locks.C51_all_finish"
   ],
   "note": "Calls are modelled as their sequences of lock operations on Go read-write mutexes; fairness of the scheduler is not assumed, every maximal run is finite and finishes all calls."
  },
  {
   "property": "C52",
   "status": "proved",
   "theorems": [
    "Verif.C52_names_closed",
    "Verif.C52_loads",
    "Verif.C52_content",
    "Verif.C52_not_a_snapshot",
    "Verif.C52_violated_no_root"
   ],
   "note": "Proved for every interleaving of the reads of one dump with legal calls; a failing AddNode-with-used-ID (illegal call) is excluded; a dump that starts before the root exists and the fact that a dump is not a snapshot are shown."
  },
  {
   "property": "C53",
   "status": "proved",
   "theorems": [
    "Verif.Alias.C53_caller_cannot_change",
    "Verif.Alias.C53_annotations",
    "Verif.Alias.C53_refs",
    "Verif.Alias.C53_data",
    "Verif.Alias.C53_setters_keep"
   ],
   "note": "Memory-level model (maps and slices as cells). No sequence of calls lets the caller change the tree through what they got from a getter or made themselves, unless they hand the map to SetAnnotations or SetData; those keep the reference (C53_setters_keep)."
  },
  {
   "property": "C54",
   "status": "proved",
   "theorems": [
    "Verif.C54_removed",
    "Verif.C54_frame"
   ],
   "note": "C54_removed covers the case without faults, C54_frame every interruption and fault. When the unmount is refused, removing the directory reaches into the upper layer (see DESIGN.md)."
  },
  {
   "property": "C55",
   "status": "proved",
   "theorems": [
    "Verif.C55_accepted",
    "Verif.C55_init",
    "Verif.C55_references",
    "Verif.C55_accepted_iff"
   ],
   "note": "C55_accepted gives success on every free path; C55_init and C55_references describe the result. The branch name must not spell the random ID of the new working layer."
  },
  {
   "property": "C56",
   "status": "proved",
   "theorems": [
    "Verif.C56_others"
   ],
   "note": "All acts and all outcomes without io faults. The hypothesis Low says the tree of the other workspace is below the JSON nesting limit even after one more commit."
  },
  {
   "property": "C57",
   "status": "partial",
   "theorems": [
    "Verif.C57_violated_checkout",
    "Verif.C57_violated_edit",
    "Verif.C57_violated_link",
    "Verif.C57_commit_partial",
    "Verif.C57_checkout_partial",
    "Verif.C57_clone_partial",
    "Verif.C57_edit_partial",
    "Verif.C57_init",
    "Verif.C57_progress"
   ],
   "note": "Proved for all references and links on which decoding an ID does not crash, and for init without condition; C57_progress excludes hanging. Violated for the others: C57_violated_checkout, C57_violated_edit, C57_violated_link."
  },
  {
   "property": "C58",
   "status": "partial",
   "theorems": [
    "Verif.C58_mounted",
    "Verif.C58_violated_reboot"
   ],
   "note": "Proved while the workspace is mounted. C58_violated_reboot proves that after a restart of the machine the statement is false for every workspace that may commit."
  },
  {
   "property": "C59",
   "status": "proved",
   "theorems": [
    "Verif.C59_tag",
    "Verif.C59_untag",
    "Verif.C59_branch",
    "Verif.C59_unbranch"
   ],
   "note": "Names that are not valid UTF-8 are changed when saved (C17)."
  },
  {
   "property": "C60",
   "status": "proved",
   "theorems": [
    "Verif.C60_no_global_branch",
    "Verif.C60_origin",
    "Verif.C60_no_remote_branches",
    "Verif.C60_concurrent"
   ],
   "note": ""
  },
  {
   "property": "C61",
   "status": "proved",
   "theorems": [
    "Verif.C61_checkout_accepted_iff",
    "Verif.C61_checkout_refused"
   ],
   "note": "Both directions for every reachable world; a refused checkout leaves everything but the list of used random numbers unchanged."
  },
  {
   "property": "C62",
   "status": "proved",
   "theorems": [
    "Verif.C62_clone_accepted_iff"
   ],
   "note": "Both directions for every reachable world."
  },
  {
   "property": "C63",
   "status": "partial",
   "theorems": [
    "Verif.Ws.C63_marks_partial",
    "Verif.Ws.C63_tells_partial"
   ],
   "note": "Branches with a line feed in their name are not shown (see C21_violated_newline); everything else is proved."
  },
  {
   "property": "C64",
   "status": "partial",
   "theorems": [
    "Verif.Cli.C64_same_partial",
    "Verif.Cli.C64_root",
    "Verif.Cli.C64_violated_refused",
    "Verif.Cli.C64_violated_names",
    "Verif.Cli.C64_violated_branch",
    "Verif.Cli.C64_violated_untag",
    "Verif.Cli.C64_violated_untag_disk"
   ],
   "note": "C64_same_partial: for every command line without -- the job under sudo is root's job with the user's IDs; C64_root for root and log. With -- the claim is false: C64_violated_refused, C64_violated_names, C64_violated_branch, C64_violated_untag, and on disk C64_violated_untag_disk."
  },
  {
   "property": "C65",
   "status": "partial",
   "theorems": [
    "Verif.Cli.C65_on_branch_partial",
    "Verif.Cli.C65_violated",
    "Verif.Cli.C65_checkout_partial",
    "Verif.Cli.C65_violated_checkout"
   ],
   "note": "C65_on_branch_partial and C65_checkout_partial: the current branch is printed. Detached, the claim is false: C65_violated, and C65_violated_checkout for every checkout of something that is no branch."
  },
  {
   "property": "C66",
   "status": "partial",
   "theorems": [
    "Verif.Cli.C66_message_partial",
    "Verif.Cli.C66_violated",
    "Verif.Cli.C66_line"
   ],
   "note": "C66_message_partial: at most one -m. With two or more the claim is false (C66_violated); C66_line shows that every list of -m options is accepted."
  },
  {
   "property": "C67",
   "status": "proved",
   "theorems": [
    "Verif.Cli.C67_chdir_root",
    "Verif.Cli.C67_chdir_user"
   ],
   "note": "As root and through sudo. The command line itself has no second -C; DIR is not empty and exists."
  },
  {
   "property": "C68",
   "status": "proved",
   "theorems": [
    "Verif.Cli.C68_reading",
    "Verif.Cli.C68_which"
   ],
   "note": "C68_reading for every outcome and every interruption; C68_which says which command lines are reading ones."
  },
  {
   "property": "C69",
   "status": "partial",
   "theorems": [
    "Verif.Cli.C69_branches",
    "Verif.Cli.C69_remotes",
    "Verif.Cli.C69_all",
    "Verif.Cli.C69_tags_partial",
    "Verif.Cli.C69_violated_tags"
   ],
   "note": "C69_branches: lines are the branch names without a line feed. C69_tags_partial needs tags without line feeds; C69_violated_tags shows that otherwise a line is shown that is no tag."
  },
  {
   "property": "C70",
   "status": "proved",
   "theorems": [
    "Verif.Cli.C70_tags",
    "Verif.Cli.C70_tags_stop",
    "Verif.Cli.C70_branches",
    "Verif.Cli.C70_branches_stop"
   ],
   "note": "C70_tags, C70_tags_stop, C70_branches, C70_branches_stop; the stop theorems assume that no file operation fails."
  },
  {
   "property": "C71",
   "status": "proved",
   "theorems": [
    "Verif.C71_tree_whole",
    "Verif.C71_load_total",
    "Verif.C71_record_whole",
    "Verif.C71_no_failing_writes",
    "Verif.C71_apart",
    "Verif.C71_one_after_another"
   ],
   "note": "Condition as stated: executions without a write that fails half-way into a file another command has filled since it was emptied (Sys.Tidy); C71_no_failing_writes, C71_apart and C71_one_after_another say when there are none."
  },
  {
   "property": "C72",
   "status": "proved",
   "theorems": [
    "Verif.C72_ancestry",
    "Verif.C72_parent"
   ],
   "note": "Condition as stated: executions without a write that fails half-way into a file another command has filled since it was emptied (Sys.Tidy); C71_no_failing_writes, C71_apart and C71_one_after_another say when there are none."
  },
  {
   "property": "C73",
   "status": "proved",
   "theorems": [
    "Verif.C73_no_hang",
    "Verif.C73_crash"
   ],
   "note": "Condition as stated: executions without a write that fails half-way into a file another command has filled since it was emptied (Sys.Tidy); C71_no_failing_writes, C71_apart and C71_one_after_another say when there are none."
  },
  {
   "property": "C74",
   "status": "proved",
   "theorems": [
    "Verif.C74_mount_history",
    "Verif.C74_mount_history_before",
    "Verif.C74_mounts_agree"
   ],
   "note": "Condition as stated: executions without a write that fails half-way into a file another command has filled since it was emptied (Sys.Tidy); C71_no_failing_writes, C71_apart and C71_one_after_another say when there are none."
  },
  {
   "property": "C75",
   "status": "proved",
   "theorems": [
    "Verif.C75_init",
    "Verif.C75_clone",
    "Verif.C75_commit",
    "Verif.C75_checkout",
    "Verif.C75_others_commit",
    "Verif.C75_others_checkout",
    "Verif.C75_others_clone",
    "Verif.C75_others_init"
   ],
   "note": "For every user and every history in which each command may be another user's. The umask is taken to leave 0755."
  },
  {
   "property": "C76",
   "status": "partial",
   "theorems": [
    "Verif.C76_violated_commit",
    "Verif.C76_violated_checkout",
    "Verif.C76_violated_clone",
    "Verif.C76_violated_owner",
    "Verif.C76_edit_partial"
   ],
   "note": "The code violates it: every commit, checkout and clone starts a new upper layer whose top directory is 0755 and belongs to whoever gives the command (C76_violated_commit, _checkout, _clone, _owner). What is below the top keeps its owner and mode (C27, C33, C34); branch and tag change nothing (C76_edit_partial)."
  },
  {
   "property": "C77",
   "status": "proved",
   "theorems": [
    "Verif.C77_tidy",
    "Verif.C77_apart",
    "Verif.C77_killed",
    "Verif.C77_past",
    "Verif.C77_commit"
   ],
   "note": "C77_apart, C77_tidy, C77_killed, C77_past: disks that any such history left (Legacy) stay such disks; every theorem with the hypothesis Reachable starts from them. C77_commit spells it out for a commit after a kill. The condition on records is needed because a command killed between removing a mount directory and its record leaves such a record."
  },
  {
   "property": "C78",
   "status": "proved",
   "theorems": [
    "Verif.C78_untouched",
    "Verif.C78_torn"
   ],
   "note": "C78_untouched: any unreadable tree file, all executions without failing reads. C78_torn: a file that was cut off, all executions with any failures. The file keeps its bytes and no path opens a workspace of the space."
  },
  {
   "property": "C79",
   "status": "proved",
   "theorems": [
    "Verif.C79_killed",
    "Verif.C79_serial",
    "Verif.C79_answers"
   ],
   "note": "C79_serial: any interleaving of commands that open workspaces of different spaces at different paths, and of inits, has the answers and the final disk of any serial order. C79_killed: the same for any stopping points. C79_answers: each answer is one that the command can give alone. Commands of one space do not have this property, see C43."
  },
  {
   "property": "C80",
   "status": "proved",
   "theorems": [
    "Verif.Cli.C80_values",
    "Verif.Cli.C80_one_number",
    "Verif.Cli.C80_means",
    "Verif.Cli.C80_one",
    "Verif.Cli.C80_front",
    "Verif.Cli.C80_only",
    "Verif.Cli.C80_words",
    "Verif.Cli.C80_options",
    "Verif.Cli.C80_job"
   ],
   "note": "Written, Asks and Means are the rules; the parser is modelled function by function in Cli/Flags and Cli/Find. Example lines are at the end of Props/Lines."
  },
  {
   "property": "C81",
   "status": "proved",
   "theorems": [
    "Verif.Cli.C81_done",
    "Verif.Cli.C81_line"
   ],
   "note": "Names in UTF-8 (C16)."
  },
  {
   "property": "C82",
   "status": "partial",
   "theorems": [
    "Verif.C82_no_workspace_partial",
    "Verif.C82_no_source_partial",
    "Verif.C82_checkout_partial",
    "Verif.C82_edit_partial",
    "Verif.C82_init_partial",
    "Verif.C82_violated_commit",
    "Verif.C82_violated_clone",
    "Verif.C82_violated_init"
   ],
   "note": "The full claim is false for commit on a branch that cannot follow, for clone to a taken path and for init and clone below a missing directory or on a link to a mount that is gone (C82_violated_*). Proved: the refusals that come before the first write change nothing."
  },
  {
   "property": "C83",
   "status": "proved",
   "theorems": [
    "Verif.C83_tidy",
    "Verif.C83_layers",
    "Verif.C83_refused"
   ],
   "note": ""
  },
  {
   "property": "C84",
   "status": "partial",
   "theorems": [
    "Verif.Sudo.C84_zero",
    "Verif.Sudo.C84_status",
    "Verif.Sudo.C84_stops",
    "Verif.Sudo.C84_violated_interrupt",
    "Verif.Sudo.C84_violated_killed",
    "Verif.Sudo.C84_done"
   ],
   "note": "The claim about exit with 1 is false for interrupted commands (C84_violated_interrupt, C84_violated_killed). Proved: the claims about exit with 0 for all schedules, and about both without signals."
  },
  {
   "property": "C85",
   "status": "partial",
   "theorems": [
    "Verif.C85_commit_partial",
    "Verif.C85_checkout_partial",
    "Verif.C85_violated_commit",
    "Verif.C85_violated_checkout"
   ],
   "note": "The full claim is violated: C85_violated_commit, C85_violated_checkout. Proved for every kill and every failing call: the workspace is as before or as after, or only the link is missing, or the history cannot be read. Which files the new mount shows is stated for runs without busy mounts and failing reads."
  },
  {
   "property": "C86",
   "status": "proved",
   "theorems": [
    "Verif.C86_init",
    "Verif.C86_clone"
   ],
   "note": "Proved for every kill and every combination of failing calls."
  },
  {
   "property": "C87",
   "status": "partial",
   "theorems": [
    "Verif.C87_init_partial",
    "Verif.C87_violated_init",
    "Verif.C87_violated_clone"
   ],
   "note": "The full claim is violated: C87_violated_init, C87_violated_clone. Proved: init on a workspace that shows a file is refused and changes nothing, unless a look at the path fails."
  },
  {
   "property": "C88",
   "status": "partial",
   "theorems": [
    "Verif.C88_violated_commit",
    "Verif.C88_violated_commit_runs",
    "Verif.C88_commit_partial",
    "Verif.C88_commit_refused",
    "Verif.C88_violated_checkout",
    "Verif.C88_violated_checkout_runs",
    "Verif.C88_checkout_partial"
   ],
   "note": "Proved while nobody is inside this workspace (C88_commit_partial, C88_checkout_partial) and for refused commits (C88_commit_refused). The code violates the rest: every commit or checkout with somebody inside fails after deleting the files (C88_violated_commit, C88_violated_checkout; such runs exist: _runs)."
  },
  {
   "property": "C89",
   "status": "partial",
   "theorems": [
    "Verif.C89_violated_same_ids",
    "Verif.C89_violated_pigeonhole",
    "Verif.C89_used_layer_partial",
    "Verif.C89_again_partial",
    "Verif.C89_violated_refused",
    "Verif.C89_careful_partial",
    "Verif.C89_at_once_partial"
   ],
   "note": "The claim that IDs differ is violated: C89_violated_same_ids, C89_violated_pigeonhole, C89_violated_refused. What is proved is that repeats do no harm: C89_used_layer_partial, C89_again_partial, C89_careful_partial, C89_at_once_partial. The table of the generator of Go's standard library is a parameter. Not covered: IDs that agree by chance in another place of the sequences."
  },
  {
   "property": "C90",
   "status": "proved",
   "theorems": [
    "Verif.C90_wrapped",
    "Verif.C90_from",
    "Verif.C90_text_kept",
    "Verif.C90_text_tells",
    "Verif.C90_layer",
    "Verif.C90_violated_text"
   ],
   "note": "Camel (no colon, no opening bracket in the reason) is what the interface Status asks for, and less; without it C90_violated_text. FromError of a nil error panics (see fromError). Errors with several errors inside do not occur in /repo and are not modelled."
  },
  {
   "property": "C91",
   "status": "proved",
   "theorems": [
    "Verif.C91_simulates",
    "Verif.C91_history",
    "Verif.C91_goes_on",
    "Verif.C91_returns",
    "Verif.C91_undisturbed"
   ],
   "note": "Forward simulation over all histories, acceptance, and two corollaries. Exclusions are in the statement; acceptance is stated for keys on which decoding an ID does not crash (PlainKey)."
  },
  {
   "property": "C92",
   "status": "partial",
   "theorems": [
    "Verif.C92_layer_stays",
    "Verif.C92_set_aside",
    "Verif.C92_restart",
    "Verif.C92_violated_checkout"
   ],
   "note": "Proved: the layer a workspace worked in before a successful checkout never changes again in any concurrent execution (C92_layer_stays), and checking out its ID in any workspace of the history at any later time, also after a restart, shows exactly the files that were there (C92_set_aside, C92_restart). Missing because the code violates it: checkout does not keep or protect changes that were not committed (C92_violated_checkout). C92_set_aside assumes that no layer under the old one was the working layer of another workspace (C35)."
  },
  {
   "property": "C93",
   "status": "proved",
   "theorems": [
    "Verif.C93_layers",
    "Verif.C93_layers_stay",
    "Verif.C93_mounts",
    "Verif.C93_spaces",
    "Verif.C93_commit",
    "Verif.C93_checkout",
    "Verif.C93_clone",
    "Verif.C93_init"
   ],
   "note": "Bounds for all concurrent executions (C93_layers, C93_mounts, C93_spaces, C93_layers_stay) and the exact change for each command that succeeds."
  },
  {
   "property": "C94",
   "status": "partial",
   "theorems": [
    "Verif.C94_moved",
    "Verif.C94_init",
    "Verif.C94_clone",
    "Verif.C94_commit",
    "Verif.C94_checkout",
    "Verif.C94_same",
    "Verif.C94_violated_two_links"
   ],
   "note": "Proved: a moved link opens the same workspace, commands leave it where it is, links are absolute, and branch and tag commands agree through two links. Violated: after a commit through one of two links the other leads to nothing (C94_violated_two_links), because a commit puts a new mount in place of the old one and updates only the link it was given."
  },
  {
   "property": "C95",
   "status": "proved",
   "theorems": [
    "Verif.C95_nodes",
    "Verif.C95_parent",
    "Verif.C95_root",
    "Verif.C95_has_child",
    "Verif.C95_children",
    "Verif.C95_leaf",
    "Verif.C95_add_answer",
    "Verif.C95_delete_answer",
    "Verif.C95_annotation",
    "Verif.C95_data",
    "Verif.C95_returns"
   ],
   "note": "For every sequence of calls of the methods of Node. Maps given to SetAnnotations and SetData are taken by value here; that the code shares them with the caller is C53_setters_keep."
  },
  {
   "property": "C96",
   "status": "partial",
   "theorems": [
    "Verif.C96_found",
    "Verif.C96_found_itself",
    "Verif.C96_others",
    "Verif.C96_accepted",
    "Verif.C96_accepted_root",
    "Verif.C96_violated_cycle",
    "Verif.C96_violated_duplicate"
   ],
   "note": "C96_found, C96_found_itself, C96_others, C96_accepted, C96_accepted_root hold for all nodes. Violated: C96_violated_cycle (the call never returns) and C96_violated_duplicate."
  },
  {
   "property": "C97",
   "status": "partial",
   "theorems": [
    "Verif.C97_tree",
    "Verif.C97_record",
    "Verif.C97_null",
    "Verif.C97_violated_lost"
   ],
   "note": "Proved in full as far as reading goes. Partial because what the program does not know is lost when the file is saved again (C97_violated_lost)."
  },
  {
   "property": "C98",
   "status": "proved",
   "theorems": [
    "Verif.C98_layout",
    "Verif.C98_refused",
    "Verif.C98_written",
    "Verif.C98_written_record",
    "Verif.C98_one_value",
    "Verif.C98_spelling"
   ],
   "note": "The grammar is in Json/Grammar. What the escapes in a string mean is specified independently of the model of unquote by Says (C98_spelling)."
  },
  {
   "property": "C99",
   "status": "proved",
   "theorems": [
    "Verif.Alias.C99_new_node",
    "Verif.Alias.C99_set_parent",
    "Verif.Alias.C99_add_annotation",
    "Verif.Alias.C99_set_annotations",
    "Verif.Alias.C99_add_data",
    "Verif.Alias.C99_set_data",
    "Verif.Alias.C99_add_child",
    "Verif.Alias.C99_delete_child",
    "Verif.Alias.C99_add_tag",
    "Verif.Alias.C99_delete_tag",
    "Verif.Alias.C99_add_branch",
    "Verif.Alias.C99_delete_branch",
    "Verif.Alias.C99_update_branch",
    "Verif.Alias.C99_add_node",
    "Verif.Alias.C99_others",
    "Verif.Alias.C99_names",
    "Verif.Alias.C99_shared_map"
   ],
   "note": "for maps that are handed to one setter once; C99_shared_map shows that two nodes given the same map share it"
  },
  {
   "property": "C100",
   "status": "proved",
   "theorems": [
    "Verif.C100_hex",
    "Verif.C100_hex_unique",
    "Verif.C100_base32",
    "Verif.C100_base32_unique",
    "Verif.C100_string",
    "Verif.C100_read_hex",
    "Verif.C100_read_base32"
   ],
   "note": "The statement knows positional notation and the two lists of digits, nothing of the encoders."
  },
  {
   "property": "C101",
   "status": "proved",
   "theorems": [
    "Verif.C101_written",
    "Verif.C101_read",
    "Verif.C101_one_tree",
    "Verif.C101_record_written",
    "Verif.C101_record_read"
   ],
   "note": "For trees and records whose texts are valid UTF-8 (C17 says what happens to others); reading up to the nesting limit of the JSON reader (C19)."
  },
  {
   "property": "C102",
   "status": "partial",
   "theorems": [
    "Verif.Linear.C102_linearizable_partial",
    "Verif.Linear.C102_violated_search",
    "Verif.Linear.C102_violated_links"
   ],
   "note": "Proved for the twelve methods that take their locks once. Search is not atomic (C102_violated_search), and looking at nodes while AddNode runs shows a state between (C102_violated_links)."
  },
  {
   "property": "C103",
   "status": "partial",
   "theorems": [
    "Verif.C103_one_moment_partial",
    "Verif.C103_commit_partial",
    "Verif.C103_checkout_partial",
    "Verif.C103_files_partial",
    "Verif.C103_violated"
   ],
   "note": "C103_one_moment_partial: beside one other command, with failing calls or killed anywhere, and any number of listings, a listing shows what opening the workspace gives at one moment while it runs. C103_commit_partial and C103_checkout_partial say what it shows beside a commit and a checkout of the same workspace. C103_files_partial: beside any commands each of the three files it reads is of one moment. C103_violated: when a commit and then a new tag overtake it, the listing shows a workspace that was never there."
  },
  {
   "property": "C104",
   "status": "partial",
   "theorems": [
    "Verif.C104_chdir",
    "Verif.C104_commit_partial",
    "Verif.C104_checkout_partial",
    "Verif.C104_clone",
    "Verif.C104_init",
    "Verif.C104_edit",
    "Verif.C104_clone_lost",
    "Verif.C104_violated_commit",
    "Verif.C104_violated_checkout"
   ],
   "note": "clone, init, branch and tag: proved for every value of PWD. commit and checkout: proved for every process that knows its working directory by PWD, as always after -C DIR with the path of the workspace. Violated for commit and checkout by a process whose PWD is not set or wrong or is the mount point itself (C104_violated_commit, C104_violated_checkout): the command always fails in the end, but the commit is recorded while the workspace stays on the old layer."
  },
  {
   "property": "C105",
   "status": "partial",
   "theorems": [
    "Verif.NodeLock.C105_linearizable_partial",
    "Verif.NodeLock.C105_linearizable_nil",
    "Verif.NodeLock.C105_no_crash",
    "Verif.NodeLock.C105_violated_nil",
    "Verif.NodeLock.C105_alone",
    "Verif.Parents.C105_parent_partial",
    "Verif.Parents.C105_violated_parent"
   ],
   "note": "Proved for all calls except that Annotations and Data beside SetAnnotations(nil) or SetData(nil) may return an empty map for nil (C105_violated_nil); with that exception, and without a crash, for all calls (C105_linearizable_nil, C105_no_crash). Parent and SetParent: proved unless a node becomes a root or stops being one (C105_parent_partial), where the answer can be half a value (C105_violated_parent). Memory is sequentially consistent."
  },
  {
   "property": "C106",
   "status": "partial",
   "theorems": [
    "Verif.C106_refused_partial",
    "Verif.C106_violated_commit",
    "Verif.C106_violated_checkout",
    "Verif.C106_violated_edit"
   ],
   "note": "Refusal proved for every disk, fault and command when the directory is known by a path that is no link and not below the data root. Violated for a directory known by its real path (C106_violated_commit, C106_violated_checkout, for every reachable disk and directory at any depth): the commit is recorded, and then the command fails if the directory is not empty; if it is empty, it succeeds, changes the commit and loses the workspace. branch, tag and clone do there what they do at the top (C106_violated_edit)."
  },
  {
   "property": "C107",
   "status": "partial",
   "theorems": [
    "Verif.C107_same",
    "Verif.C107_commit",
    "Verif.C107_checkout",
    "Verif.C107_commit_accepted_iff",
    "Verif.C107_checkout_accepted_iff",
    "Verif.C107_runs",
    "Verif.C107_outer_commit",
    "Verif.C107_outer_checkout_partial",
    "Verif.C107_violated_checkout",
    "Verif.C107_violated_stale",
    "Verif.C107_clone_into",
    "Verif.C107_clone_self",
    "Verif.C107_clone_accepted_iff",
    "Verif.C107_clone_runs",
    "Verif.C107_clone_from",
    "Verif.C107_clone_from_runs",
    "Verif.C107_clone_from_accepted_iff",
    "Verif.C107_edit_same",
    "Verif.C107_edit",
    "Verif.C107_edit_accepted_iff",
    "Verif.C107_edit_runs",
    "Verif.C107_init_into",
    "Verif.C107_init_accepted_iff",
    "Verif.C107_init_runs"
   ],
   "note": "Proved for every reachable disk, depth and run without faults: commit, checkout, branch and tag in the inner workspace (C107_same, C107_commit, C107_checkout, C107_commit_accepted_iff, C107_checkout_accepted_iff, C107_runs, C107_edit_same, C107_edit, C107_edit_accepted_iff, C107_edit_runs), init at a path inside a workspace, also at a link unless it leads to a mount over the writable layer of that workspace (C107_init_into, C107_init_accepted_iff, C107_init_runs), clone to a path inside a workspace (C107_clone_into, C107_clone_self, C107_clone_accepted_iff, C107_clone_runs), clone of the inner workspace to a path outside (C107_clone_from, C107_clone_from_accepted_iff, C107_clone_from_runs), commit in the outer one (C107_outer_commit), and checkout in the outer one of a commit with the same link (C107_outer_checkout_partial). Violated by other checkouts in the outer one: C107_violated_checkout (the path is lost) and C107_violated_stale (the link of an older commit is broken). Not shown: init at such a link, and a clone from inside to inside."
  },
  {
   "property": "C108",
   "status": "partial",
   "theorems": [
    "Verif.C108_spelling",
    "Verif.C108_refused",
    "Verif.C108_undisturbed",
    "Verif.C108_past",
    "Verif.C108_violated_taken",
    "Verif.C108_violated_lost"
   ],
   "note": "Proved: spelling, refusal of commands with the wrong data directory, undisturbed workspaces and histories for every act but init and clone onto the path itself (C108_spelling, C108_refused, C108_undisturbed, C108_past). The full claim is false: init and clone take the path of a workspace of another data directory (C108_violated_taken for every successful run, C108_violated_lost that there are such runs)."
  },
  {
   "property": "C109",
   "status": "partial",
   "theorems": [
    "Verif.C109_violated_refused",
    "Verif.C109_relinked",
    "Verif.C109_commits",
    "Verif.C109_work",
    "Verif.C109_commit",
    "Verif.C109_commit_accepted_iff",
    "Verif.C109_violated_long"
   ],
   "note": "The code violates the first part: C109_violated_refused (workspaces are broken links after the move), C109_violated_long (the new path is too long for the mount options). The rest is proved for every new path: C109_relinked, C109_commits, C109_work, C109_commit, C109_commit_accepted_iff."
  },
  {
   "property": "C110",
   "status": "partial",
   "theorems": [
    "Verif.C110_reachable",
    "Verif.C110_snapshot",
    "Verif.C110_snapshot_one",
    "Verif.C110_restored",
    "Verif.C110_commits",
    "Verif.C110_violated_lost"
   ],
   "note": "Violated for workspaces that have committed or checked out since the backup: C110_violated_lost. The rest is proved: C110_reachable, C110_restored, C110_commits, and for copies of one moment while commands run C110_snapshot, C110_snapshot_one. Not covered: a copy of the moment between the removal of an old mount and that of its record."
  },
  {
   "property": "C111",
   "status": "partial",
   "theorems": [
    "Verif.C111_commit",
    "Verif.C111_checkout",
    "Verif.C111_init",
    "Verif.C111_clone",
    "Verif.C111_edit",
    "Verif.C111_no_other",
    "Verif.C111_violated_killed"
   ],
   "note": "Proved on every disk and for every failing call: C111_commit, C111_checkout, C111_init, C111_clone, C111_edit; C111_no_other also for kills. Violated when the process is killed between making the link and giving it away: C111_violated_killed, the link is root's."
  },
  {
   "property": "C112",
   "status": "partial",
   "theorems": [
    "Verif.C112_next_iff",
    "Verif.C112_possible_iff",
    "Verif.C112_new",
    "Verif.C112_violated_full",
    "Verif.C112_violated_left",
    "Verif.C112_violated_always",
    "Verif.C112_violated_written",
    "Verif.C112_violated_lost"
   ],
   "note": "The code violates the property. Shown instead: after n commits the next succeeds just if the mount options fit with all layers (C112_next_iff, C112_possible_iff; 64 commits in a new workspace below the default data directory, C112_new); a commit in a full workspace always fails, is recorded in the history nevertheless, and leaves the workspace as it was (C112_violated_full, C112_violated_left, C112_violated_always, for paths of at most 97 layers), which goes on writing into it (C112_violated_written); nobody can check it out (C112_violated_lost)."
  },
  {
   "property": "C113",
   "status": "partial",
   "theorems": [
    "Verif.C113_repeated",
    "Verif.C113_checkout_repeated",
    "Verif.C113_violated_gone",
    "Verif.C113_violated_extra",
    "Verif.C113_violated_delete",
    "Verif.C113_violated_delete_branches",
    "Verif.C113_edit_repeated",
    "Verif.C113_init_repeated",
    "Verif.C113_clone_repeated",
    "Verif.C113_forced_repeated"
   ],
   "note": "The code violates the property: every commit can be killed so that it cannot be repeated (C113_violated_gone), or so that its repetition leaves a layer nobody uses (C113_violated_extra), and tag -d or branch -d with several names so that every repetition is refused and names stay (C113_violated_delete, C113_violated_delete_branches). Proved, for every kill and every failing call: if the history can be read, the path leads to a workspace and no record has lost its mount, the repetition succeeds, with the effect of one commit or, if the first attempt counts, of two (C113_repeated); for checkout C113_checkout_repeated, with keys that are not the ID of a missing layer; for init and clone on a free path C113_init_repeated, C113_clone_repeated (if the source opens); for one change of a branch or tag, with a name in UTF-8, C113_edit_repeated, C113_forced_repeated (if the workspace opens). The mount options have to fit."
  },
  {
   "property": "C114",
   "status": "proved",
   "theorems": [
    "Verif.C114_forced",
    "Verif.C114_refused"
   ],
   "note": "C114_forced (with -f), C114_refused (without, and -d), for names in valid UTF-8, as stated; C17 says what becomes of others."
  },
  {
   "property": "C115",
   "status": "proved",
   "theorems": [
    "Verif.C115_tag_deleted",
    "Verif.C115_branch_deleted",
    "Verif.C115_tag_restored",
    "Verif.C115_branch_restored"
   ],
   "note": "C115_tag_deleted, C115_branch_deleted, C115_tag_restored, C115_branch_restored."
  },
  {
   "property": "C116",
   "status": "proved",
   "theorems": [
    "Verif.C116_once",
    "Verif.C116_any_way",
    "Verif.C116_there_and_back"
   ],
   "note": "C116_once, C116_any_way, C116_there_and_back, with the exceptions that the statement names."
  },
  {
   "property": "C117",
   "status": "proved",
   "theorems": [
    "Verif.C117_either_order"
   ],
   "note": "For every pair of single changes, accepted or refused, on a working system. The references are such that reading them as an ID does not crash (C05), names valid UTF-8."
  },
  {
   "property": "C118",
   "status": "proved",
   "theorems": [
    "Verif.C118_new_branch",
    "Verif.C118_tag"
   ],
   "note": "C118_new_branch for branch, checkout and commit, C118_tag for tag and checkout, on a working system. The path of the workspace is a link to a mount, the reference and the name are such that reading them as an ID does not crash (C05)."
  },
  {
   "property": "C119",
   "status": "partial",
   "theorems": [
    "Verif.C119_others",
    "Verif.C119_same",
    "Verif.C119_current",
    "Verif.C119_violated",
    "Verif.C119_repair"
   ],
   "note": "The code violates the property: C119_violated, for branch -f with the branch that the workspace is on. Proved: no change decides about the commits of another workspace of the space (C119_others), nor about those of its own unless it sets the branch the workspace is on (C119_same); if it does, commits are accepted exactly if the new place is an ancestor of the working layer (C119_current), so branch -f NAME HEAD always helps (C119_repair, also against C29)."
  },
  {
   "property": "C120",
   "status": "proved",
   "theorems": [
    "Verif.C120_tag",
    "Verif.C120_hand_over",
    "Verif.C120_id"
   ],
   "note": "C120_tag: a tag set in one workspace and checked out in another one; C120_hand_over: with the commit before it, the files are those that the first workspace showed; C120_id: the same with the ID of the commit instead of a tag, whatever happens in between. As in C33, no layer under the commit may be the working layer of a workspace."
  },
  {
   "property": "C121",
   "status": "proved",
   "theorems": [
    "Verif.C121_start",
    "Verif.C121_id",
    "Verif.C121_name"
   ],
   "note": "C121_start: by any name of the first layer; C121_id: by its ID, which is always a name; C121_name: by ROOT, in histories without tag -d ROOT and tag -f ROOT."
  },
  {
   "property": "C122",
   "status": "proved",
   "theorems": [
    "Verif.C122_same",
    "Verif.C122_clone"
   ],
   "note": "C122_same for two checkouts, C122_clone for a clone of a workspace whose last commit it is, under the condition of the statement: no layer of the commit is a working layer."
  }
 ]
}
