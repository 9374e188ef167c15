{
 "C01": {
  "status": "proved",
  "note": ""
 },
 "C02": {
  "status": "proved",
  "note": ""
 },
 "C03": {
  "status": "proved",
  "note": ""
 },
 "C04": {
  "status": "proved",
  "note": ""
 },
 "C05": {
  "status": "partial",
  "note": "Which texts decode to which ID is exact (C05_base32_decode_iff). The code violates the no-panic half; C05_violated_exactly lists the texts on which it panics."
 },
 "C06": {
  "status": "partial",
  "note": "Proved for digests of at least 16 bytes. A shorter digest panics (C06_violated_short)."
 },
 "C07": {
  "status": "proved",
  "note": "Bijection between draws of the random source (math/rand) and IDs; how good the source is shows in C32 and Go/Rand."
 },
 "C08": {
  "status": "proved",
  "note": "For nodes added once, with a new ID (Op.Legal); C08_duplicate_id_breaks_tree shows the duty is needed."
 },
 "C09": {
  "status": "proved",
  "note": ""
 },
 "C10": {
  "status": "proved",
  "note": ""
 },
 "C100": {
  "status": "proved",
  "note": "The statement knows positional notation and the two lists of digits, nothing of the encoders."
 },
 "C101": {
  "status": "proved",
  "note": "For trees and records whose texts are valid UTF-8 (C17 says what happens to others); reading up to the nesting limit of the JSON reader (C19)."
 },
 "C102": {
  "status": "partial",
  "note": "Proved for the twelve methods that take their locks once. Search is not atomic (C102_violated_search), and looking at nodes while AddNode runs shows a state between (C102_violated_links)."
 },
 "C103": {
  "status": "partial",
  "note": "C103_one_moment_partial: beside one other command, with failing calls or killed anywhere, and any number of listings, a listing shows what opening the workspace gives at one moment while it runs. C103_commit_partial and C103_checkout_partial say what it shows beside a commit and a checkout of the same workspace. C103_files_partial: beside any commands each of the three files it reads is of one moment. C103_violated: when a commit and then a new tag overtake it, the listing shows a workspace that was never there."
 },
 "C104": {
  "status": "partial",
  "note": "clone, init, branch and tag: proved for every value of PWD. commit and checkout: proved for every process that knows its working directory by PWD, as always after -C DIR with the path of the workspace. Violated for commit and checkout by a process whose PWD is not set or wrong or is the mount point itself (C104_violated_commit, C104_violated_checkout): the command always fails in the end, but the commit is recorded while the workspace stays on the old layer."
 },
 "C105": {
  "status": "partial",
  "note": "Proved for all calls except that Annotations and Data beside SetAnnotations(nil) or SetData(nil) may return an empty map for nil (C105_violated_nil); with that exception, and without a crash, for all calls (C105_linearizable_nil, C105_no_crash). Parent and SetParent: proved unless a node becomes a root or stops being one (C105_parent_partial), where the answer can be half a value (C105_violated_parent). Memory is sequentially consistent."
 },
 "C106": {
  "status": "partial",
  "note": "Refusal proved for every disk, fault and command when the directory is known by a path that is no link and not below the data root. Violated for a directory known by its real path (C106_violated_commit, C106_violated_checkout, for every reachable disk and directory at any depth): the commit is recorded, and then the command fails if the directory is not empty; if it is empty, it succeeds, changes the commit and loses the workspace. branch, tag and clone do there what they do at the top (C106_violated_edit)."
 },
 "C107": {
  "status": "partial",
  "note": "Proved for every reachable disk, depth and run without faults: commit, checkout, branch and tag in the inner workspace (C107_same, C107_commit, C107_checkout, C107_commit_accepted_iff, C107_checkout_accepted_iff, C107_runs, C107_edit_same, C107_edit, C107_edit_accepted_iff, C107_edit_runs), init at a path inside a workspace, also at a link unless it leads to a mount over the writable layer of that workspace (C107_init_into, C107_init_accepted_iff, C107_init_runs), clone to a path inside a workspace (C107_clone_into, C107_clone_self, C107_clone_accepted_iff, C107_clone_runs), clone of the inner workspace to a path outside (C107_clone_from, C107_clone_from_accepted_iff, C107_clone_from_runs), commit in the outer one (C107_outer_commit), and checkout in the outer one of a commit with the same link (C107_outer_checkout_partial). Violated by other checkouts in the outer one: C107_violated_checkout (the path is lost) and C107_violated_stale (the link of an older commit is broken). Not shown: init at such a link, and a clone from inside to inside."
 },
 "C108": {
  "status": "partial",
  "note": "Proved: spelling, refusal of commands with the wrong data directory, undisturbed workspaces and histories for every act but init and clone onto the path itself (C108_spelling, C108_refused, C108_undisturbed, C108_past). The full claim is false: init and clone take the path of a workspace of another data directory (C108_violated_taken for every successful run, C108_violated_lost that there are such runs)."
 },
 "C109": {
  "status": "partial",
  "note": "The code violates the first part: C109_violated_refused (workspaces are broken links after the move), C109_violated_long (the new path is too long for the mount options). The rest is proved for every new path: C109_relinked, C109_commits, C109_work, C109_commit, C109_commit_accepted_iff."
 },
 "C11": {
  "status": "proved",
  "note": ""
 },
 "C110": {
  "status": "partial",
  "note": "Violated for workspaces that have committed or checked out since the backup: C110_violated_lost. The rest is proved: C110_reachable, C110_restored, C110_commits, and for copies of one moment while commands run C110_snapshot, C110_snapshot_one. Not covered: a copy of the moment between the removal of an old mount and that of its record."
 },
 "C111": {
  "status": "partial",
  "note": "Proved on every disk and for every failing call: C111_commit, C111_checkout, C111_init, C111_clone, C111_edit; C111_no_other also for kills. Violated when the process is killed between making the link and giving it away: C111_violated_killed, the link is root's."
 },
 "C112": {
  "status": "partial",
  "note": "The code violates the property. Shown instead: after n commits the next succeeds just if the mount options fit with all layers (C112_next_iff, C112_possible_iff; 64 commits in a new workspace below the default data directory, C112_new); a commit in a full workspace always fails, is recorded in the history nevertheless, and leaves the workspace as it was (C112_violated_full, C112_violated_left, C112_violated_always, for paths of at most 97 layers), which goes on writing into it (C112_violated_written); nobody can check it out (C112_violated_lost)."
 },
 "C113": {
  "status": "partial",
  "note": "The code violates the property: every commit can be killed so that it cannot be repeated (C113_violated_gone), or so that its repetition leaves a layer nobody uses (C113_violated_extra), and tag -d or branch -d with several names so that every repetition is refused and names stay (C113_violated_delete, C113_violated_delete_branches). Proved, for every kill and every failing call: if the history can be read, the path leads to a workspace and no record has lost its mount, the repetition succeeds, with the effect of one commit or, if the first attempt counts, of two (C113_repeated); for checkout C113_checkout_repeated, with keys that are not the ID of a missing layer; for init and clone on a free path C113_init_repeated, C113_clone_repeated (if the source opens); for one change of a branch or tag, with a name in UTF-8, C113_edit_repeated, C113_forced_repeated (if the workspace opens). The mount options have to fit."
 },
 "C114": {
  "status": "proved",
  "note": "C114_forced (with -f), C114_refused (without, and -d), for names in valid UTF-8, as stated; C17 says what becomes of others."
 },
 "C115": {
  "status": "proved",
  "note": "C115_tag_deleted, C115_branch_deleted, C115_tag_restored, C115_branch_restored."
 },
 "C116": {
  "status": "proved",
  "note": "C116_once, C116_any_way, C116_there_and_back, with the exceptions that the statement names."
 },
 "C117": {
  "status": "proved",
  "note": "For every pair of single changes, accepted or refused, on a working system. The references are such that reading them as an ID does not crash (C05), names valid UTF-8."
 },
 "C118": {
  "status": "proved",
  "note": "C118_new_branch for branch, checkout and commit, C118_tag for tag and checkout, on a working system. The path of the workspace is a link to a mount, the reference and the name are such that reading them as an ID does not crash (C05)."
 },
 "C119": {
  "status": "partial",
  "note": "The code violates the property: C119_violated, for branch -f with the branch that the workspace is on. Proved: no change decides about the commits of another workspace of the space (C119_others), nor about those of its own unless it sets the branch the workspace is on (C119_same); if it does, commits are accepted exactly if the new place is an ancestor of the working layer (C119_current), so branch -f NAME HEAD always helps (C119_repair, also against C29)."
 },
 "C12": {
  "status": "proved",
  "note": ""
 },
 "C120": {
  "status": "proved",
  "note": "C120_tag: a tag set in one workspace and checked out in another one; C120_hand_over: with the commit before it, the files are those that the first workspace showed; C120_id: the same with the ID of the commit instead of a tag, whatever happens in between. As in C33, no layer under the commit may be the working layer of a workspace."
 },
 "C121": {
  "status": "proved",
  "note": "C121_start: by any name of the first layer; C121_id: by its ID, which is always a name; C121_name: by ROOT, in histories without tag -d ROOT and tag -f ROOT."
 },
 "C122": {
  "status": "proved",
  "note": "C122_same for two checkouts, C122_clone for a clone of a workspace whose last commit it is, under the condition of the statement: no layer of the commit is a working layer."
 },
 "C13": {
  "status": "proved",
  "note": ""
 },
 "C14": {
  "status": "partial",
  "note": "Exact for every key on which base32 decoding does not panic (PlainKey); C14_violated_exactly: Search panics on exactly the other keys."
 },
 "C15": {
  "status": "proved",
  "note": "Every iteration order; the level loop of Dump is modelled with a memory of cells (C15_dump_loop)."
 },
 "C16": {
  "status": "partial",
  "note": "Load never panics or hangs on any dump, and for dumps without repeated IDs it succeeds exactly when all references resolve and gives a well-formed tree. Dumps with repeated IDs load to a broken tree (C16_violated_duplicate)."
 },
 "C17": {
  "status": "partial",
  "note": "Equality to the byte is proved for valid UTF-8 (C17_save_load_partial); C17_comes_back characterises what comes back for all texts. The code violates the rest: names in other encodings change, vanish or merge (C17_violated_*)."
 },
 "C18": {
  "status": "proved",
  "note": "Every strict prefix of a saved file; torn writes that leave other bytes (file system block reordering) are not prefixes and not covered."
 },
 "C19": {
  "status": "partial",
  "note": "A saved tree loads exactly when it is Shallow (C19_loads_iff_partial). The code violates the rest: chains of more than 5000 layers save but never load (C19_violated_depth)."
 },
 "C20": {
  "status": "partial",
  "note": "A name containing a line feed is not parsed back (C20_violated_newline); for every other name the round trip is proved, full names are injective for all names, and the parser never crashes."
 },
 "C21": {
  "status": "partial",
  "note": "Exactness, isolation, order and determinism are proved for all names without a line feed; a branch whose name has a line feed exists but is never listed (C21_violated_newline)."
 },
 "C22": {
  "status": "proved",
  "note": "For every well-formed tree and every iteration order."
 },
 "C23": {
  "status": "proved",
  "note": "For every reference on which decoding an ID does not crash; on the others Search crashes (C26_search_crashes_iff)."
 },
 "C24": {
  "status": "proved",
  "note": "On the tree (Ws.C24_*) and for whole commands: C24_accepted_iff, and C24_refused for the disk."
 },
 "C25": {
  "status": "proved",
  "note": ""
 },
 "C26": {
  "status": "proved",
  "note": "C26_search for the references on which decoding an ID does not crash; C26_search_crashes_iff for the others."
 },
 "C27": {
  "status": "proved",
  "note": "For every history of commands without I/O errors and every later commit, whatever faults occur in it."
 },
 "C28": {
  "status": "proved",
  "note": "For every history of commands without I/O errors; the commit itself without I/O errors."
 },
 "C29": {
  "status": "partial",
  "note": "Violated for every clone of a workspace that is on a branch (C29_violated_on_branch). Proved for clones of detached workspaces (C29_detached_partial, C29_detached_commits)."
 },
 "C30": {
  "status": "partial",
  "note": "Proved for branches named by their own short name (C30_own_branch, C30_next_commit). Violated for full names (C30_violated_full_name). The origin/ half of the statement cannot arise: no history has a global branch (C60)."
 },
 "C31": {
  "status": "proved",
  "note": "For every reachable disk and every later history without io faults. Only the node of a current working layer may gain a message and date."
 },
 "C32": {
  "status": "partial",
  "note": "Proved for every commit that succeeded: from any disk that commands can leave, in every later execution (any number of commands at once, failures, kills, writes), its layer never changes (C32_commit_layer) and, if no layer below it was a working layer, neither do its files (C32_commit_frozen). C32_violated_commit: any accepted commit on a busy mount is recorded while all its files are deleted. C32_violated_killed: any commit that would succeed can be killed so that it is recorded while the workspace goes on writing into its layer."
 },
 "C33": {
  "status": "proved",
  "note": "For commits none of whose layers was a working layer of some workspace when it was checked out or changed; the exception is part of C32."
 },
 "C34": {
  "status": "proved",
  "note": ""
 },
 "C35": {
  "status": "partial",
  "note": "Proved unless the working layer of one workspace is in the history of the other (C35_isolated_partial, C35_steady_partial). C35_violated_checkout: checking out the ID of another workspace's working layer is accepted, and then everything written there shows."
 },
 "C36": {
  "status": "proved",
  "note": "Invariant over all interleavings, crash points, I/O failures and random choices (Verif.World.PoolInv)."
 },
 "C37": {
  "status": "proved",
  "note": "Layer walk and mounts.New: upper is the new node's layer, lowers are the proper ancestors, nearest first; missing layer or root node gives an error."
 },
 "C38": {
  "status": "partial",
  "note": "Proved for data roots without comma, colon and backslash while the string fits. Violated for each of the three bytes, with witnesses."
 },
 "C39": {
  "status": "partial",
  "note": "Exact length and exact fitting condition proved. Violated: from 98 lower layers on at every data root (66 at the default one) the string is cut and the kernel does not read the meant work directory."
 },
 "C40": {
  "status": "partial",
  "note": "Exact listing for every history in which no Create failed between making the directory and writing the diff; the violations of the full statement are proved."
 },
 "C41": {
  "status": "proved",
  "note": "Every command, every point at which it can be killed, torn writes included. C41_violated_truncated proves that the stronger wish in the statement fails: killing any branch or tag change after the truncation makes every workspace of the space unopenable; C41_violated_forever: it stays so in every later execution."
 },
 "C42": {
  "status": "proved",
  "note": "Covers every error returned before the tree is saved, under every combination of faults."
 },
 "C43": {
  "status": "partial",
  "note": "C43_sequential proves the statement for commits one after the other. C43_violated_overlap proves that it is false for overlapping commits, for every reachable state and every two workspaces of a space that may commit. C43_violated_clash and C43_violated_tags: two branch or tag commands whose texts differ in length destroy the space for good while both report success."
 },
 "C44": {
  "status": "partial",
  "note": "Proved: resolution succeeds exactly for the mount points, symlinks to them and what lies below, is lexical, and fails otherwise. Violated: a path component with a line feed directly below mounts crashes the decoder (C44_violated_newline); C44_violated_exactly gives all such paths."
 },
 "C45": {
  "status": "partial",
  "note": "Proved for init unless looking at the path fails; C45_violated_init shows that it then replaces a file. C45_violated_clone proves that clone replaces a regular file at the target in every reachable state, so the statement is false for clone; C45_clone_partial is what does hold."
 },
 "C46": {
  "status": "partial",
  "note": "Proved for histories without tag -d ROOT and tag -f ROOT. Those violate it (C46_violated_delete, C46_violated_move)."
 },
 "C47": {
  "status": "partial",
  "note": "A Prepare that succeeds leaves all directories in place, makes nothing else, runs its work once and is idempotent. The claim that success means ready fails after a failed first attempt in the same process: C47_violated_retry."
 },
 "C48": {
  "status": "partial",
  "note": "The first half (the first interrupt cancels the command's context, and nothing but a signal does) is proved: C48_first_cancels, C48_only_by_signal. The second half fails: C48_violated_second and C48_violated_cancelled show executions in which a second interrupt is swallowed; C48_second_partial says when it does end the process."
 },
 "C49": {
  "status": "partial",
  "note": "C49_log_panics_iff decides exactly when the log panics. C49_log_partial proves that it never does if commits are dated by the program and nothing but commits is named by its ID. The full claim is false: C49_violated_working_layer and C49_violated_after_checkout show two short histories in which log panics."
 },
 "C50": {
  "status": "partial",
  "note": "Proved for the date to the minute of its offset (Time.C50_date_round_trip) and for messages in valid UTF-8 (C50_commit_partial, C50_stays, C50_history). The full claim is false: C50_violated_utf8. RFC 3339 formatting and parsing are modelled from the documentation of the Go library; inputs that the strict parser refuses are a parameter."
 },
 "C51": {
  "status": "proved",
  "note": "Calls are modelled as their sequences of lock operations on Go read-write mutexes; fairness of the scheduler is not assumed, every maximal run is finite and finishes all calls."
 },
 "C52": {
  "status": "proved",
  "note": "Proved for every interleaving of the reads of one dump with legal calls; a failing AddNode-with-used-ID (illegal call) is excluded; a dump that starts before the root exists and the fact that a dump is not a snapshot are shown."
 },
 "C53": {
  "status": "proved",
  "note": "Memory-level model (maps and slices as cells). No sequence of calls lets the caller change the tree through what they got from a getter or made themselves, unless they hand the map to SetAnnotations or SetData; those keep the reference (C53_setters_keep)."
 },
 "C54": {
  "status": "proved",
  "note": "C54_removed covers the case without faults, C54_frame every interruption and fault. When the unmount is refused, removing the directory reaches into the upper layer (see DESIGN.md)."
 },
 "C55": {
  "status": "proved",
  "note": "C55_accepted gives success on every free path; C55_init and C55_references describe the result. The branch name must not spell the random ID of the new working layer."
 },
 "C56": {
  "status": "proved",
  "note": "All acts and all outcomes without io faults. The hypothesis Low says the tree of the other workspace is below the JSON nesting limit even after one more commit."
 },
 "C57": {
  "status": "partial",
  "note": "Proved for all references and links on which decoding an ID does not crash, and for init without condition; C57_progress excludes hanging. Violated for the others: C57_violated_checkout, C57_violated_edit, C57_violated_link."
 },
 "C58": {
  "status": "partial",
  "note": "Proved while the workspace is mounted. C58_violated_reboot proves that after a restart of the machine the statement is false for every workspace that may commit."
 },
 "C59": {
  "status": "proved",
  "note": "Names that are not valid UTF-8 are changed when saved (C17)."
 },
 "C60": {
  "status": "proved",
  "note": ""
 },
 "C61": {
  "status": "proved",
  "note": "Both directions for every reachable world; a refused checkout leaves everything but the list of used random numbers unchanged."
 },
 "C62": {
  "status": "proved",
  "note": "Both directions for every reachable world."
 },
 "C63": {
  "status": "partial",
  "note": "Branches with a line feed in their name are not shown (see C21_violated_newline); everything else is proved."
 },
 "C64": {
  "status": "partial",
  "note": "C64_same_partial: for every command line without -- the job under sudo is root's job with the user's IDs; C64_root for root and log. With -- the claim is false: C64_violated_refused, C64_violated_names, C64_violated_branch, C64_violated_untag, and on disk C64_violated_untag_disk."
 },
 "C65": {
  "status": "partial",
  "note": "C65_on_branch_partial and C65_checkout_partial: the current branch is printed. Detached, the claim is false: C65_violated, and C65_violated_checkout for every checkout of something that is no branch."
 },
 "C66": {
  "status": "partial",
  "note": "C66_message_partial: at most one -m. With two or more the claim is false (C66_violated); C66_line shows that every list of -m options is accepted."
 },
 "C67": {
  "status": "proved",
  "note": "As root and through sudo. The command line itself has no second -C; DIR is not empty and exists."
 },
 "C68": {
  "status": "proved",
  "note": "C68_reading for every outcome and every interruption; C68_which says which command lines are reading ones."
 },
 "C69": {
  "status": "partial",
  "note": "C69_branches: lines are the branch names without a line feed. C69_tags_partial needs tags without line feeds; C69_violated_tags shows that otherwise a line is shown that is no tag."
 },
 "C70": {
  "status": "proved",
  "note": "C70_tags, C70_tags_stop, C70_branches, C70_branches_stop; the stop theorems assume that no file operation fails."
 },
 "C71": {
  "status": "proved",
  "note": "Condition as stated: executions without a write that fails half-way into a file another command has filled since it was emptied (Sys.Tidy); C71_no_failing_writes, C71_apart and C71_one_after_another say when there are none."
 },
 "C72": {
  "status": "proved",
  "note": "Condition as stated: executions without a write that fails half-way into a file another command has filled since it was emptied (Sys.Tidy); C71_no_failing_writes, C71_apart and C71_one_after_another say when there are none."
 },
 "C73": {
  "status": "proved",
  "note": "Condition as stated: executions without a write that fails half-way into a file another command has filled since it was emptied (Sys.Tidy); C71_no_failing_writes, C71_apart and C71_one_after_another say when there are none."
 },
 "C74": {
  "status": "proved",
  "note": "Condition as stated: executions without a write that fails half-way into a file another command has filled since it was emptied (Sys.Tidy); C71_no_failing_writes, C71_apart and C71_one_after_another say when there are none."
 },
 "C75": {
  "status": "proved",
  "note": "For every user and every history in which each command may be another user's. The umask is taken to leave 0755."
 },
 "C76": {
  "status": "partial",
  "note": "The code violates it: every commit, checkout and clone starts a new upper layer whose top directory is 0755 and belongs to whoever gives the command (C76_violated_commit, _checkout, _clone, _owner). What is below the top keeps its owner and mode (C27, C33, C34); branch and tag change nothing (C76_edit_partial)."
 },
 "C77": {
  "status": "proved",
  "note": "C77_apart, C77_tidy, C77_killed, C77_past: disks that any such history left (Legacy) stay such disks; every theorem with the hypothesis Reachable starts from them. C77_commit spells it out for a commit after a kill. The condition on records is needed because a command killed between removing a mount directory and its record leaves such a record."
 },
 "C78": {
  "status": "proved",
  "note": "C78_untouched: any unreadable tree file, all executions without failing reads. C78_torn: a file that was cut off, all executions with any failures. The file keeps its bytes and no path opens a workspace of the space."
 },
 "C79": {
  "status": "proved",
  "note": "C79_serial: any interleaving of commands that open workspaces of different spaces at different paths, and of inits, has the answers and the final disk of any serial order. C79_killed: the same for any stopping points. C79_answers: each answer is one that the command can give alone. Commands of one space do not have this property, see C43."
 },
 "C80": {
  "status": "proved",
  "note": "Written, Asks and Means are the rules; the parser is modelled function by function in Cli/Flags and Cli/Find. Example lines are at the end of Props/Lines."
 },
 "C81": {
  "status": "proved",
  "note": "Names in UTF-8 (C16)."
 },
 "C82": {
  "status": "partial",
  "note": "The full claim is false for commit on a branch that cannot follow, for clone to a taken path and for init and clone below a missing directory or on a link to a mount that is gone (C82_violated_*). Proved: the refusals that come before the first write change nothing."
 },
 "C83": {
  "status": "proved",
  "note": ""
 },
 "C84": {
  "status": "partial",
  "note": "The claim about exit with 1 is false for interrupted commands (C84_violated_interrupt, C84_violated_killed). Proved: the claims about exit with 0 for all schedules, and about both without signals."
 },
 "C85": {
  "status": "partial",
  "note": "The full claim is violated: C85_violated_commit, C85_violated_checkout. Proved for every kill and every failing call: the workspace is as before or as after, or only the link is missing, or the history cannot be read. Which files the new mount shows is stated for runs without busy mounts and failing reads."
 },
 "C86": {
  "status": "proved",
  "note": "Proved for every kill and every combination of failing calls."
 },
 "C87": {
  "status": "partial",
  "note": "The full claim is violated: C87_violated_init, C87_violated_clone. Proved: init on a workspace that shows a file is refused and changes nothing, unless a look at the path fails."
 },
 "C88": {
  "status": "partial",
  "note": "Proved while nobody is inside this workspace (C88_commit_partial, C88_checkout_partial) and for refused commits (C88_commit_refused). The code violates the rest: every commit or checkout with somebody inside fails after deleting the files (C88_violated_commit, C88_violated_checkout; such runs exist: _runs)."
 },
 "C89": {
  "status": "partial",
  "note": "The claim that IDs differ is violated: C89_violated_same_ids, C89_violated_pigeonhole, C89_violated_refused. What is proved is that repeats do no harm: C89_used_layer_partial, C89_again_partial, C89_careful_partial, C89_at_once_partial. The table of the generator of Go's standard library is a parameter. Not covered: IDs that agree by chance in another place of the sequences."
 },
 "C90": {
  "status": "proved",
  "note": "Camel (no colon, no opening bracket in the reason) is what the interface Status asks for, and less; without it C90_violated_text. FromError of a nil error panics (see fromError). Errors with several errors inside do not occur in /repo and are not modelled."
 },
 "C91": {
  "status": "proved",
  "note": "Forward simulation over all histories, acceptance, and two corollaries. Exclusions are in the statement; acceptance is stated for keys on which decoding an ID does not crash (PlainKey)."
 },
 "C92": {
  "status": "partial",
  "note": "Proved: the layer a workspace worked in before a successful checkout never changes again in any concurrent execution (C92_layer_stays), and checking out its ID in any workspace of the history at any later time, also after a restart, shows exactly the files that were there (C92_set_aside, C92_restart). Missing because the code violates it: checkout does not keep or protect changes that were not committed (C92_violated_checkout). C92_set_aside assumes that no layer under the old one was the working layer of another workspace (C35)."
 },
 "C93": {
  "status": "proved",
  "note": "Bounds for all concurrent executions (C93_layers, C93_mounts, C93_spaces, C93_layers_stay) and the exact change for each command that succeeds."
 },
 "C94": {
  "status": "partial",
  "note": "Proved: a moved link opens the same workspace, commands leave it where it is, links are absolute, and branch and tag commands agree through two links. Violated: after a commit through one of two links the other leads to nothing (C94_violated_two_links), because a commit puts a new mount in place of the old one and updates only the link it was given."
 },
 "C95": {
  "status": "proved",
  "note": "For every sequence of calls of the methods of Node. Maps given to SetAnnotations and SetData are taken by value here; that the code shares them with the caller is C53_setters_keep."
 },
 "C96": {
  "status": "partial",
  "note": "C96_found, C96_found_itself, C96_others, C96_accepted, C96_accepted_root hold for all nodes. Violated: C96_violated_cycle (the call never returns) and C96_violated_duplicate."
 },
 "C97": {
  "status": "partial",
  "note": "Proved in full as far as reading goes. Partial because what the program does not know is lost when the file is saved again (C97_violated_lost)."
 },
 "C98": {
  "status": "proved",
  "note": "The grammar is in Json/Grammar. What the escapes in a string mean is specified independently of the model of unquote by Says (C98_spelling)."
 },
 "C99": {
  "status": "proved",
  "note": "for maps that are handed to one setter once; C99_shared_map shows that two nodes given the same map share it"
 }
}