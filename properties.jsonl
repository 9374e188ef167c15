{"id": "C01", "title": "Hex form of an ID round-trips", "statement": "For every 128-bit ID, Hex() is exactly 32 characters from [0-9a-f], and DecodeUID128FromHex(Hex()) returns the same ID without error.", "quantifier": "all 2^128 IDs", "why_tests_cant": "A test samples a few IDs; the claim is over the whole 2^128 domain.", "anchors": ["pkg/utils/uid/uid_128.go: uid128.Hex, DecodeUID128FromHex"]}
{"id": "C02", "title": "Base32 form of an ID round-trips", "statement": "For every 128-bit ID, Base32() is exactly 26 characters from [A-Z2-7], and DecodeUID128FromBase32(Base32()) returns the same ID without error.", "quantifier": "all 2^128 IDs", "why_tests_cant": "The bit packing has to be right in all 130 positions for every ID, not for one sampled value.", "anchors": ["pkg/utils/uid/uid_128.go: uid128.Base32, DecodeUID128FromBase32"]}
{"id": "C03", "title": "Text forms of different IDs never collide", "statement": "Two different IDs never have the same hex form, never the same base32 form and never the same String() form, so directory names and index keys built from IDs cannot alias.", "quantifier": "all pairs of IDs", "why_tests_cant": "Injectivity is a statement about all pairs.", "anchors": ["pkg/utils/uid/uid_128.go: Hex, Base32, String", "pkg/layers/manager.go: getLayerDataRoot", "pkg/spaces/trees/tree.go: nodes index"]}
{"id": "C04", "title": "Hex decoding accepts exactly the hex spellings", "statement": "DecodeUID128FromHex succeeds exactly on strings of 32 hex digits in either case, and the ID it returns has that string, lower-cased, as its Hex() form. Any other string gives an error.", "quantifier": "all byte strings", "why_tests_cant": "The input domain is all strings of any length.", "anchors": ["pkg/utils/uid/uid_128.go: DecodeUID128FromHex"]}
{"id": "C05", "title": "Base32 decoding never crashes and is sound", "statement": "DecodeUID128FromBase32 on any user-supplied text either returns an error or an ID whose Base32() form agrees with the text in the first 25 characters; it never panics. (The code violates the no-panic half on exactly these texts of 26 bytes: base32 characters with a line break among them, and texts that, without line breaks, have 2, 4, 5 or 7 base32 characters in their last group of eight, then bytes 0xFF to the end of the group, and then at most that many bytes more.)", "quantifier": "all byte strings", "why_tests_cant": "The crashing inputs are a thin set that sampling does not hit.", "anchors": ["pkg/utils/uid/uid_128.go: DecodeUID128FromBase32", "pkg/spaces/trees/tree.go: Search"]}
{"id": "C06", "title": "IDs from a hash take the leading 128 bits, zero-padded", "statement": "NewUID128FromHash returns the first 16 bytes of the digest when the digest has at least 16 bytes, and the digest padded with zero bytes when it is shorter, as documented. (The code violates the second half: a shorter digest panics.)", "quantifier": "all digests of all lengths", "why_tests_cant": "Tests only use two hash algorithms, both with digests of at least 16 bytes.", "anchors": ["pkg/utils/uid/uid_128.go: NewUID128FromHash"]}
{"id": "C07", "title": "Random IDs use all 128 random bits", "statement": "NewUID128 is a bijection between pairs of 64-bit random draws and IDs: no random bit is dropped or duplicated, so IDs are as unique as the generator's output.", "quantifier": "all pairs of 64-bit draws", "why_tests_cant": "A dropped byte would not show up in a sampled non-repetition test.", "anchors": ["pkg/utils/uid/uid_128.go: NewUID128"]}
{"id": "C08", "title": "A tree is always one rooted tree", "statement": "After any sequence of tree operations that add nodes with new IDs, set or move tags and branches, delete them or annotate nodes, following Parent() from any node that Get finds reaches the root in finitely many steps, a node is in its parent's Children() and only there, and the only node without a parent is the root.", "quantifier": "all operation sequences of any length", "why_tests_cant": "The invariant is over unboundedly long histories.", "anchors": ["pkg/spaces/trees/tree.go: AddNode, updateIndexes", "pkg/spaces/trees/node.go: AddChild, SetParent"]}
{"id": "C09", "title": "Adding a node does exactly that", "statement": "AddNode under an existing parent makes the new node findable with that parent and leaves every other node, its parent, its annotations, every tag and every branch as they were. AddNode with an unknown parent, or of a second root, returns an error and changes nothing. The root never changes once set.", "quantifier": "all trees, all IDs", "why_tests_cant": "It quantifies over all trees and has a frame condition over all other nodes.", "anchors": ["pkg/spaces/trees/tree.go: AddNode"]}
{"id": "C10", "title": "Tags behave like a map from names to nodes", "statement": "AddTag makes the name resolve to the node, replacing an older target, and fails without effect on an unknown node; DeleteTag removes it and reports whether it existed; other names, branches and nodes are not touched.", "quantifier": "all trees, names and IDs, all operation sequences", "why_tests_cant": "It is a functional correctness claim with a frame over all other names.", "anchors": ["pkg/spaces/trees/tree.go: AddTag, DeleteTag, GetByTag, Tags"]}
{"id": "C11", "title": "Branches behave like a map from names to nodes", "statement": "AddBranch makes the name resolve to the node, replacing an older head, and fails without effect on an unknown node; DeleteBranch removes it and reports whether it existed; other names, tags and nodes are not touched.", "quantifier": "all trees, names and IDs, all operation sequences", "why_tests_cant": "It is a functional correctness claim with a frame over all other names.", "anchors": ["pkg/spaces/trees/tree.go: AddBranch, DeleteBranch, GetByBranch, Branches"]}
{"id": "C12", "title": "A branch moves without force only forward", "statement": "UpdateBranch(name, id, false) succeeds exactly when the branch and the node exist and the branch's current head is the node itself or one of its ancestors; on success the head is the node, on failure nothing changes. With force it succeeds whenever both exist. It always terminates on a tree built by the API.", "quantifier": "all trees, all branches, all target nodes at any distance", "why_tests_cant": "Ancestry is unbounded in depth; tests fix a depth.", "anchors": ["pkg/spaces/trees/tree.go: UpdateBranch"]}
{"id": "C13", "title": "Tags and branches never dangle", "statement": "After any operation sequence every tag and every branch points to a node that Get finds under its own ID.", "quantifier": "all operation sequences", "why_tests_cant": "An invariant over histories.", "anchors": ["pkg/spaces/trees/tree.go: AddTag, AddBranch, UpdateBranch"]}
{"id": "C14", "title": "Search resolves references with a fixed precedence", "statement": "Search finds a node whenever the key is an ID in hex (any case) or base32 of a node, a tag or a full branch name; an ID wins over a tag and a tag over a branch, so no tag or branch can shadow an existing commit ID; it returns nothing only when none of the three match; what it reports as the key type is what matched.", "quantifier": "all trees and all keys", "why_tests_cant": "Names may look like IDs and vice versa; the claim covers every such overlap.", "anchors": ["pkg/spaces/trees/tree.go: Search"]}
{"id": "C15", "title": "Dump then Load gives the same tree", "statement": "Loading a dump of any tree built by the API succeeds and gives a tree with the same nodes, parents, children, annotations, data, root, tags and branches, whatever order Go's map iteration visits children, tags and branches in.", "quantifier": "all trees, all map iteration orders", "why_tests_cant": "Both the shape of the tree and the iteration order are unbounded choices.", "anchors": ["pkg/spaces/trees/dump.go: Dump, Load"]}
{"id": "C16", "title": "Load accepts only well-formed dumps and builds a well-formed tree", "statement": "Load returns an error or a tree that satisfies C08 and C13, on every dump; it never panics. (The code violates this for a dump that lists an ID twice: it is accepted and the resulting tree has a node whose parent does not list it.)", "quantifier": "all dumps, including hand-edited ones", "why_tests_cant": "All possible dump contents.", "anchors": ["pkg/spaces/trees/dump.go: Load", "pkg/spaces/trees/tree.go: AddNode"]}
{"id": "C17", "title": "What is saved is what is loaded back, to the byte", "statement": "Space.Save followed by Space.Load gives back the same tree for every tag name, branch name, commit message and annotation text, with every character that JSON must escape. (The code violates this for text that is not valid UTF-8: such names come back changed, and two different names can become one.)", "quantifier": "all trees and all texts", "why_tests_cant": "All strings, including control characters, quotes, HTML characters, line separators and every UTF-8 sequence.", "anchors": ["pkg/spaces/default.go: Save, Load", "pkg/spaces/trees/dump.go: TreeDump, NodeDump"]}
{"id": "C18", "title": "A torn tree file is detected, never misread", "statement": "If only a strict prefix of the bytes written by Space.Save is in the file (a crash while writing), Space.Load returns an error; it never loads a different tree.", "quantifier": "all trees, all cut points", "why_tests_cant": "All prefixes of all files.", "anchors": ["pkg/spaces/default.go: Save (os.WriteFile), Load"]}
{"id": "C19", "title": "Every history that can be saved can be loaded", "statement": "Space.Load succeeds on every file that Space.Save wrote, however long the chain of commits. (The code violates this: the JSON decoder refuses nesting deeper than 10000, which a chain of about 5000 commits exceeds, while the encoder has no limit.)", "quantifier": "all chain lengths", "why_tests_cant": "It needs an unbounded depth.", "anchors": ["pkg/spaces/default.go: Save, Load", "pkg/spaces/trees/dump.go: NodeDump.Children"]}
{"id": "C20", "title": "Branch full names are unambiguous", "statement": "Two branches have the same full name only if they belong to the same workspace (or are both global) and have the same name; parsing a full name gives back the branch; the local name shown to the user parses back to the branch. (The code violates the parse half for names that contain a line break.)", "quantifier": "all names and workspace IDs", "why_tests_cant": "All strings, including names that contain slashes or look like IDs or like origin/...", "anchors": ["pkg/workspaces/branch.go: FullName, LocalName, ParseBranchFullName, ParseBranchLocalName"]}
{"id": "C21", "title": "Branch listings are exact, isolated and deterministic", "statement": "LocalBranches lists exactly the branches of this workspace, RemoteBranches exactly the global ones, AllBranches both with local ones first; each is sorted by name, shows each branch once with its current head, never shows a branch of another workspace, and does not depend on map iteration order.", "quantifier": "all trees, all workspaces, all map iteration orders", "why_tests_cant": "Order independence ranges over all permutations.", "anchors": ["pkg/workspaces/workspace.go: AllBranches, LocalBranches, RemoteBranches"]}
{"id": "C22", "title": "The tag listing is exact and deterministic", "statement": "Tags() lists every tag of the space except ROOT, each once, in byte order, whatever the map iteration order.", "quantifier": "all trees, all map iteration orders", "why_tests_cant": "Order independence ranges over all permutations.", "anchors": ["pkg/workspaces/workspace.go: Tags"]}
{"id": "C23", "title": "History is the chain of ancestors, newest first", "statement": "GetHistory(ref) returns exactly the node the reference resolves to and its ancestors, without the root, from newest to oldest, each once, and terminates; an unresolvable reference is an error.", "quantifier": "all trees, all references on which decoding an ID does not crash (C05), all depths", "why_tests_cant": "Unbounded depth.", "anchors": ["pkg/workspaces/workspace.go: GetHistory, Search"]}
{"id": "C24", "title": "Creating a tag or branch never overwrites one unless forced", "statement": "Without force, AddBranch and AddTag on an existing name return an error and leave tree and disk as they were; with force or a free name they make the name resolve to the node the reference resolved to.", "quantifier": "all trees, names, references", "why_tests_cant": "All combinations of existing names and references.", "anchors": ["pkg/workspaces/workspace.go: AddBranch, AddTag"]}
{"id": "C25", "title": "Deleting a branch is confined", "statement": "DeleteBranch refuses the branch the workspace has checked out, deletes at most the one named branch of this workspace (or the global one when asked), and can never delete a branch of another workspace.", "quantifier": "all trees, all names, all pairs of workspaces", "why_tests_cant": "All names, including ones that contain another workspace's ID and a slash.", "anchors": ["pkg/workspaces/workspace.go: DeleteBranch"]}
{"id": "C26", "title": "References resolve the same way in every command", "statement": "Workspace.Search resolves HEAD to the last commit of the workspace, then IDs, tags and full names as the tree does, then the workspace's own branch of that name, then a global branch when the name starts with origin/; it fails only if none exists. It crashes on exactly the references on which decoding an ID crashes (C05).", "quantifier": "all workspaces, all references", "why_tests_cant": "All overlaps of naming schemes.", "anchors": ["pkg/workspaces/workspace.go: Search"]}
{"id": "C27", "title": "A commit records the working layer and moves the branch to it", "statement": "When a commit succeeds, the workspace's working layer becomes a commit carrying the given message and time, the workspace continues on a new empty layer whose parent is that commit, the checked-out branch points to that commit, and all other nodes, tags and branches are unchanged.", "quantifier": "all trees, workspaces and messages", "why_tests_cant": "Frame conditions over the whole tree.", "anchors": ["pkg/manager/manager_default.go: Commit", "pkg/spaces/default.go: CreateMount"]}
{"id": "C28", "title": "Exactly when a commit is accepted", "statement": "With a working disk, in a workspace whose path is still its link and whose layers fit in the options of one mount call (C39), a commit succeeds if and only if the workspace is detached or its branch exists and the branch head is the working layer or an ancestor of it.", "quantifier": "all trees and workspaces", "why_tests_cant": "An exact characterisation over all states.", "anchors": ["pkg/manager/manager_default.go: Commit", "pkg/spaces/trees/tree.go: UpdateBranch"]}
{"id": "C29", "title": "A cloned workspace can be committed to", "statement": "After a successful clone, a commit in the new workspace succeeds. (The code violates this whenever the source is on a branch: the clone inherits the branch name but no branch of that name is created for it, so the first commit always fails with branch not found.)", "quantifier": "all clones", "why_tests_cant": "All source states; no unit test covers clone at all.", "anchors": ["pkg/manager/manager_default.go: Clone, Commit"]}
{"id": "C30", "title": "Checking out a branch keeps the workspace on that branch", "statement": "After checking out a branch, the next commit moves that branch to the new commit. (The code violates this when the branch is named by its full name or as origin/..., because the key itself is recorded as the local name, and the next commit fails.)", "quantifier": "all references that resolve to a branch", "why_tests_cant": "All reference spellings.", "anchors": ["pkg/manager/manager_default.go: Checkout, Commit"]}
{"id": "C31", "title": "History is append-only", "statement": "As long as no file operation fails, no command removes a commit, changes its parent, or changes the message or date of a commit other than the working layer being committed.", "quantifier": "all command histories", "why_tests_cant": "An invariant over unbounded histories of all commands.", "anchors": ["pkg/manager/manager_default.go", "pkg/workspaces/workspace.go"]}
{"id": "C32", "title": "Committed content never changes", "statement": "Once a commit is recorded in the saved history, the file content of that commit never changes, whatever commands run later or at the same time and whatever is written in any workspace. (The code violates this if the old mount is busy when it is unmounted: the failure is only logged and the recursive delete that follows goes through the still-mounted overlay into the layer just committed. The command then fails, but the commit is in the history without its files. It also fails if a workspace is based on another workspace's uncommitted layer by raw ID, and if commit is killed after it has saved the tree and before it has saved the record: the commit exists, and the workspace goes on writing into it.)", "quantifier": "all histories of commands and file writes", "why_tests_cant": "The failure needs an interleaving of a busy mount and cleanup.", "anchors": ["pkg/manager/manager_default.go: RemoveWorkspaceMount, Checkout", "pkg/mounts/mount.go"]}
{"id": "C33", "title": "Checkout restores exactly the committed content", "statement": "Right after checking out a commit, the workspace shows exactly the files the committing workspace showed when it committed, no matter which commands and writes without failing file operations happened in between, provided no workspace was working in one of the layers below the commit when it was made (that is possible only by checking out the ID of a working layer, see C32).", "quantifier": "all histories between the commit and the checkout", "why_tests_cant": "All histories and all file contents.", "anchors": ["pkg/manager/manager_default.go: Checkout, Commit", "pkg/spaces/default.go: CreateMount", "pkg/mounts/mount.go: New"]}
{"id": "C34", "title": "A clone shows the source's last commit", "statement": "Right after a clone, the new workspace shows exactly the content of the source's last commit and none of its uncommitted changes, and the source's content is unchanged.", "quantifier": "all source states", "why_tests_cant": "All contents.", "anchors": ["pkg/manager/manager_default.go: Clone"]}
{"id": "C35", "title": "Workspaces are isolated", "statement": "A file written in one workspace is never visible in another workspace that is already expanded, including workspaces of the same space.", "quantifier": "all histories, all pairs of workspaces", "why_tests_cant": "All pairs in all reachable states.", "anchors": ["pkg/spaces/default.go: CreateMount, CreateLayer", "pkg/mounts/mount.go: New"]}
{"id": "C36", "title": "No two mounts share a writable layer", "statement": "At every moment of every interleaved execution of any number of commands, with any command killed at any point and any file operation failing, two different mounts never have the same upper layer and an upper layer is never a layer that existed before its mount was created.", "quantifier": "all schedules, crash points, I/O failures and random ID choices", "why_tests_cant": "All interleavings and crash points.", "anchors": ["pkg/spaces/default.go: CreateLayer, CreateMount", "pkg/layers/manager.go: Create", "pkg/manager/manager_default.go: createMount"]}
{"id": "C37", "title": "Layers are stacked in history order", "statement": "A mount for a node consists of the layers of exactly the node's ancestors from the newest at the top to the root at the bottom, with the new layer as the only writable one on top; fewer than two layers is an error.", "quantifier": "all trees, all depths", "why_tests_cant": "Index arithmetic over all lengths.", "anchors": ["pkg/mounts/mount.go: New", "pkg/spaces/default.go: CreateMount"]}
{"id": "C38", "title": "The kernel receives the layer list that was meant", "statement": "Splitting the overlay option string at commas and the lowerdir value at colons gives back exactly the lower directories, the upper directory and the work directory. (The code violates this when the data root contains a comma or colon, which is not escaped or rejected.)", "quantifier": "all data roots, all layer lists", "why_tests_cant": "All strings.", "anchors": ["pkg/mounts/overlay_linux.go: CreateOverlayMount"]}
{"id": "C39", "title": "Every committed depth can be mounted", "statement": "The mount options of any history fit into what the mount system call accepts (one page). (The code violates this: the option string grows by the length of a layer path per commit; at the default data root, 67 or more layers exceed 4096 bytes.)", "quantifier": "all history depths", "why_tests_cant": "Unbounded depth.", "anchors": ["pkg/mounts/overlay_linux.go: CreateOverlayMount", "pkg/mounts/mount.go: New"]}
{"id": "C40", "title": "The layer store behaves like a set of layers", "statement": "Create always returns a layer that did not exist before, even if the random generator repeats an ID (then it fails without touching the existing layer); Get finds exactly the existing layers; List returns exactly the layers created and not deleted; Delete removes exactly the named one.", "quantifier": "all operation sequences, all random choices", "why_tests_cant": "Unbounded sequences, adversarial IDs.", "anchors": ["pkg/layers/manager.go: Create, Get, List, Delete", "pkg/layers/layer.go: Save"]}
{"id": "C41", "title": "A crash never corrupts history silently", "statement": "If a command is killed between any two file-system operations or during one, then for every space the next load either fails with an error or gives the tree from before the command or the tree the command meant to write. (The stronger wish, that the load always succeeds, is violated: a crash between truncating and writing tree.json loses the tree of the whole space, and no later command ever brings it back.)", "quantifier": "all commands, all crash points", "why_tests_cant": "All crash points of all commands.", "anchors": ["pkg/spaces/default.go: Save", "pkg/manager/manager_default.go"]}
{"id": "C42", "title": "A failed command leaves history alone", "statement": "A commit, checkout or clone that returns an error before the tree is saved leaves every space's saved tree, every workspace record, every mounted workspace and all committed content unchanged; at most unused directories are left behind.", "quantifier": "all commands, all failure points", "why_tests_cant": "All failure points.", "anchors": ["pkg/manager/manager_default.go: Commit, Checkout, Clone, createMount"]}
{"id": "C43", "title": "Commands on the same space do not lose each other's work", "statement": "If two commands run on workspaces of one space, both effects are in the saved tree afterwards. (True one after the other; violated when they overlap: both load, both save, the later save discards the earlier one's nodes, and the other workspace can no longer be opened. Worse, if both open the file before either writes and the later text is shorter, the file ends in the rest of the longer one, nothing can read it, and the whole space is lost for good though both commands report success.)", "quantifier": "all interleavings of two commands", "why_tests_cant": "All interleavings.", "anchors": ["pkg/manager/manager_default.go: Commit, GetWorkspaceFromPath", "pkg/spaces/default.go: Load, Save"]}
{"id": "C44", "title": "A path resolves to the workspace mounted there", "statement": "GetWorkspaceFromPath on a path whose link target, or which itself, lies inside the mount directory of ID m uses exactly m; any other path is an error; paths are compared after lexical cleaning.", "quantifier": "all absolute and relative paths, all data roots", "why_tests_cant": "All path spellings with dots, double dots and repeated slashes.", "anchors": ["pkg/manager/manager_default.go: GetWorkspaceFromPath"]}
{"id": "C45", "title": "Expanding a workspace never destroys user files", "statement": "init and clone remove nothing at the target path other than an empty directory or a symbolic link. (init satisfies this unless looking at the path fails: then it deletes a regular file. clone violates it: an existing regular file at the target is deleted.)", "quantifier": "all target paths and file-system states", "why_tests_cant": "All states of the target.", "anchors": ["pkg/commands/init.go", "pkg/commands/clone.go", "pkg/workspaces/workspace.go: Expand"]}
{"id": "C46", "title": "ROOT always names the first layer", "statement": "In every space, the reference ROOT resolves to the root node. (Violated: tag -d ROOT deletes it and tag -f ROOT moves it.)", "quantifier": "all command histories", "why_tests_cant": "An invariant over histories.", "anchors": ["pkg/spaces/default.go: Init, RootTag", "pkg/workspaces/workspace.go: DeleteTag, AddTag"]}
{"id": "C47", "title": "Preparing the data directory is idempotent and reports failure", "statement": "Prepare creates whatever of the four directories is missing, leaves existing ones alone, and when it returns no error all four exist and the layer manager is usable. (Violated on retry: after a failed Prepare a second call returns no error although nothing was prepared.)", "quantifier": "all initial directory states, all failure points, any number of calls", "why_tests_cant": "All failure points and repeated calls.", "anchors": ["pkg/manager/manager_default.go: Prepare, doPrepare"]}
{"id": "C48", "title": "A second interrupt ends the process", "statement": "The first SIGINT or SIGTERM cancels the context, a second one ends the process. (The first half holds on every schedule; the second is violated: after the first signal the watcher's second wait is already satisfied by the cancelled context, so it normally ends without ever reading the second signal.)", "quantifier": "all schedules of signals and of the watcher goroutine", "why_tests_cant": "All interleavings.", "anchors": ["pkg/utils/context/signal.go: Notify"]}
{"id": "C49", "title": "log never crashes", "statement": "The log command prints every history without panicking. (Violated for a history with an entry that has no commit date, such as another workspace's working layer named by ID: the nil check compares a method value, and a nil date is dereferenced.)", "quantifier": "all histories and references", "why_tests_cant": "All reachable trees.", "anchors": ["pkg/commands/log.go", "pkg/workspaces/commit.go: GetCommitFromNode"]}
{"id": "C50", "title": "Commit message and date come back from log", "statement": "The message of a commit is returned unchanged, and its date is returned to the second with the same UTC offset to the minute. log prints one entry for each commit of the history, newest first: a line with its ID, its date, and its message with each line moved to the right (blanks and line ends at the end are left out).", "quantifier": "all messages, all dates from year 0 to 9999", "why_tests_cant": "All dates and texts.", "anchors": ["pkg/workspaces/commit.go: SetToNode, GetCommitFromNode", "pkg/commands/log.go:44-86"]}
{"id": "C51", "title": "Tree operations never deadlock", "statement": "Any number of goroutines calling tree operations concurrently always have one that can take a step until all have finished.", "quantifier": "all schedules of any number of calls", "why_tests_cant": "Lock interleavings.", "anchors": ["pkg/spaces/trees/tree.go: nodesLock, branchesLock, tagsLock"]}
{"id": "C52", "title": "A dump taken while the tree is being changed is loadable", "statement": "A Dump that overlaps with any sequence of AddNode, AddTag, AddBranch, UpdateBranch and deletions by other goroutines mentions in its tags and branches only nodes that it contains, provided the tree already had its root.", "quantifier": "all interleavings of one dump with any changes", "why_tests_cant": "All schedules.", "anchors": ["pkg/spaces/trees/dump.go: Dump", "pkg/spaces/trees/tree.go"]}
{"id": "C53", "title": "Returned maps are copies", "statement": "Changing a map returned by Tags, Branches, Children, Annotations or Data never changes the tree. (Maps handed to SetAnnotations and SetData are, in contrast, kept by reference.)", "quantifier": "all maps, all later mutations", "why_tests_cant": "Aliasing over all mutation sequences.", "anchors": ["pkg/spaces/trees/tree.go: Tags, Branches", "pkg/spaces/trees/node.go: Children, Annotations, Data, SetAnnotations"]}
{"id": "C54", "title": "Removing a workspace mount touches only that mount", "statement": "RemoveWorkspaceMount on a mount that is not busy unmounts it and removes its directory and record if no file operation fails. Every other mount, record and space is unchanged, whatever fails and wherever it is killed, and so is every layer, except the upper layer of this very mount if it is busy or unmounting fails.", "quantifier": "all worlds, all mounts", "why_tests_cant": "Frame condition over the whole data directory.", "anchors": ["pkg/manager/manager_default.go: RemoveWorkspaceMount"]}
{"id": "C55", "title": "Initial workspace", "statement": "After init on a free path, the workspace is empty, ROOT, HEAD and the initial branch (unless its name spells the random ID of the working layer) all resolve to the root, its log is empty, and exactly one space with exactly two layers was added. On a working system init succeeds if and only if the path is free: nothing is there but the directory above, an empty directory, or a link to a mounted workspace without files.", "quantifier": "all data directory states, all branch names, all random choices", "why_tests_cant": "All prior states.", "anchors": ["pkg/manager/manager_default.go: CreateWorkspace, createSpace", "pkg/spaces/default.go: Init"]}
{"id": "C56", "title": "No command makes another workspace unusable", "statement": "Whatever init, clone, commit, checkout, branch or tag does in one workspace, and whether it succeeds or is refused (but no file operation fails), every other workspace that could be opened before can be opened after, has the same identity, branch name, working layer and last commit, and still has all of its history (if that stays below the nesting limit of the JSON decoder, C19).", "quantifier": "all histories of commands, all later commands with all outcomes", "why_tests_cant": "A frame condition over all pairs of workspaces and all outcomes of all commands.", "anchors": ["pkg/manager/manager_default.go: CreateWorkspace, Clone, Commit, Checkout", "pkg/workspaces/workspace.go"]}
{"id": "C57", "title": "No command crashes or hangs", "statement": "In every history of commands without overlapping commands and without crashes, every init, clone, commit, checkout, branch and tag command ends with success or an error; none panics and none runs for ever. (Violated: a checkout, branch or tag command with a reference on which decoding an ID crashes (C05) crashes, and has changed nothing; so does a command in a directory with such a link (C44).)", "quantifier": "all histories of commands, all references and links, all random choices", "why_tests_cant": "Quantifies over all histories; the code contains reachable panics for other inputs (C05).", "anchors": ["pkg/manager/manager_default.go", "pkg/workspaces/workspace.go", "pkg/spaces/trees"]}
{"id": "C58", "title": "A commit contains what the workspace showed", "statement": "The content of a new commit is the content the workspace showed to its user when the command started. (True while the workspace is mounted; violated after a reboot: nothing mounts the workspace again, the directory shows none of its files, files written there are deleted by the next commit, which succeeds.)", "quantifier": "all reachable worlds, all later commits", "why_tests_cant": "All histories including reboots.", "anchors": ["pkg/manager/manager_default.go: Commit, RemoveWorkspaceMount"]}
{"id": "C59", "title": "Branch and tag changes are what the next command sees", "statement": "When a branch or tag command has succeeded, the next command on the same workspace sees exactly the named branch or tag created, moved or deleted; every node, every other branch and tag, every file and every other space is unchanged.", "quantifier": "all reachable worlds, all names in valid UTF-8", "why_tests_cant": "Goes through the saved JSON and back, for all trees.", "anchors": ["pkg/workspaces/workspace.go: AddBranch, DeleteBranch, AddTag, DeleteTag", "pkg/commands/branch.go", "pkg/commands/tag.go"]}
{"id": "C60", "title": "Every branch belongs to a workspace", "statement": "In every history, every branch of every space is named after the ID of a workspace that was created; no command creates a global branch, so a reference origin/name resolves only to a tag or an own branch of exactly that name, and branch -r lists nothing.", "quantifier": "all histories of commands", "why_tests_cant": "An invariant over all histories.", "anchors": ["pkg/workspaces/workspace.go: AddBranch, RemoteBranches, Search", "pkg/manager/manager_default.go"]}
{"id": "C61", "title": "Which checkouts succeed", "statement": "In every reachable world, checkout of a printable reference in a usable workspace whose path is still its link succeeds exactly when the reference resolves in the history of the workspace (provided the stack of layers below it fits in one mount call); otherwise it is refused and neither the history, nor any layer, nor any workspace changes.", "quantifier": "all reachable worlds, all references, all random choices", "why_tests_cant": "Quantifies over all histories and references, in both directions.", "anchors": ["pkg/manager/manager_default.go: Checkout", "pkg/commands/checkout.go", "pkg/workspaces/workspace.go: Search"]}
{"id": "C62", "title": "Which clones succeed", "statement": "In every reachable world, cloning a workspace that can be opened succeeds exactly when the target path can be replaced by the workspace link and the stack of layers still fits in the options of one mount call.", "quantifier": "all reachable worlds, all targets, all random choices", "why_tests_cant": "Quantifies over all histories, in both directions.", "anchors": ["pkg/manager/manager_default.go: Clone", "pkg/workspaces/workspace.go: Expand", "pkg/mounts/mount_linux.go"]}
{"id": "C63", "title": "The log marks each commit with what points to it", "statement": "Behind each commit, the log shows exactly the tags that point to it, the branches of this workspace that point to it and the global branches that point to it (as origin/...), each once; the branch that is checked out is marked HEAD -> and comes first; branches of other workspaces are never shown. What is printed tells the marks apart: two commits that print the same have the same ID and the same marks, as long as no name contains an escape byte. (Branches whose name contains a line feed are left out.)", "quantifier": "all trees with proper branch names, all commits, all orders of iteration over the maps", "why_tests_cant": "Quantifies over all trees and over every order in which Go may iterate over its maps.", "anchors": ["pkg/commands/log.go:50-86", "pkg/workspaces/commit.go:19-57"]}
{"id": "C64", "title": "A user's command does what root's command does", "statement": "A command given by an ordinary user is run by the same program under sudo with the user's IDs added; it does exactly what the same command line does when root gives it, except that new files belong to the user. (Violated when the command line ends its flags with --: the added words count as arguments, so init, clone, commit and checkout are refused, and tag -d -- NAME deletes the tag and then fails.)", "quantifier": "all command lines, all user and group IDs", "why_tests_cant": "Quantifies over all command lines.", "anchors": ["pkg/commands/stackcrisp.go: PersistentPreRunE", "pkg/utils/cmd/cmd_util.go: SwitchToRootIfNecessary, sudoExtraArgs", "pkg/utils/sudo/sudo.go"]}
{"id": "C65", "title": "branch --show-current", "statement": "branch --show-current prints the name of the current branch, and prints nothing when no branch is checked out, as its help says. (The second half is violated: an empty line is printed.)", "quantifier": "all reachable worlds, all checkouts", "why_tests_cant": "All histories.", "anchors": ["pkg/commands/branch.go:44-47", "pkg/commands/options/branch.go"]}
{"id": "C66", "title": "commit -m given several times", "statement": "When -m is given several times, the commit message has the values as separate paragraphs, as its help says. (Violated: only the last value is kept.)", "quantifier": "all lists of messages", "why_tests_cant": "All lists of messages.", "anchors": ["pkg/commands/options/commit.go", "pkg/commands/commit.go:39"]}
{"id": "C67", "title": "-C runs the command in another directory", "statement": "stackcrisp -C DIR followed by a command does exactly what the command does when it is run in DIR: relative paths and a relative --data-root are taken from DIR, for root and for a user who goes through sudo.", "quantifier": "all command lines, all directories, all user IDs", "why_tests_cant": "Quantifies over all command lines.", "anchors": ["pkg/utils/cmd/cmd_util.go: ChangeWorkingDirectory", "pkg/commands/stackcrisp.go"]}
{"id": "C68", "title": "Listing commands change nothing", "statement": "branch and tag without a name, branch --list, branch --show-current, tag --list and log leave every file, mount, layer, space and record as they were (the first command of all makes the data directory, C47), whether they succeed, fail, or are killed on the way. Exactly these command lines only list: --list wins over --show-current, which wins over --delete.", "quantifier": "all worlds, all command lines, all failures and interruptions", "why_tests_cant": "Quantifies over all worlds and all failures.", "anchors": ["pkg/commands/branch.go", "pkg/commands/tag.go", "pkg/commands/log.go"]}
{"id": "C69", "title": "The lines of a listing are the names", "statement": "The lines that branch prints are exactly the names of the branches of the workspace, branch -a prints the same and branch -r nothing, and the lines that tag prints are exactly the tags, without ROOT, which is built in. (Violated for tags with a line feed, which are shown as several tags; branches with a line feed are not shown.)", "quantifier": "all reachable worlds", "why_tests_cant": "All histories and names.", "anchors": ["pkg/commands/branch.go: runListBranch", "pkg/commands/tag.go: runListTags"]}
{"id": "C70", "title": "Deleting several names", "statement": "tag -d and branch -d with several names delete all of them, or stop at the first name that is refused (unknown, given twice, or the current branch); the names before it are then deleted and everything else is as it was.", "quantifier": "all reachable worlds, all lists of names; stopping at a name is stated for runs without failing file operations", "why_tests_cant": "All lists of names and all histories.", "anchors": ["pkg/commands/branch.go: runDeleteBranch", "pkg/commands/tag.go: runDeleteTag"]}
{"id": "C71", "title": "Trees and records stay whole whatever runs at once", "statement": "Start with an empty store and let any commands run at the same time, be killed at any call, meet failing calls and reboots. At every moment, a tree file either cannot be loaded, or it is a proper tree: one root from which every node descends, tags and branches that name nodes, and a layer on disk for every node. A workspace record either cannot be read or names a working layer that exists. Loading never crashes or hangs. Condition: no write fails half-way into a file that another command has filled since the write began; there is no such write if no write fails by chance, or if no two commands write the same file at the same time.", "quantifier": "all executions of any number of concurrent commands with kills, failures, reboots and writes by users", "why_tests_cant": "Quantifies over all interleavings and all failures at every call.", "anchors": ["pkg/spaces/default.go: Save, Load", "pkg/spaces/trees/tree.go", "pkg/manager/manager_default.go"]}
{"id": "C72", "title": "The ancestors of a commit never change", "statement": "Take any two tree files that can be loaded, of any spaces and at any two moments of a history of concurrent commands as in C71. A commit that is in both has the same parent and the same chain of ancestors in both.", "quantifier": "all executions of any number of concurrent commands, all pairs of moments", "why_tests_cant": "Quantifies over all interleavings and over pairs of moments.", "anchors": ["pkg/spaces/trees/tree.go: AddNode", "pkg/manager/manager_default.go: Commit, Checkout, Clone"]}
{"id": "C73", "title": "No command hangs or crashes because of another", "statement": "In histories of concurrent commands as in C71, no command ever hangs, and a command crashes only if a path, a link or a reference it was given contains bytes on which it is known to crash (C05, C14, C44), never because of what other commands do at the same time or left behind.", "quantifier": "all executions of any number of concurrent commands", "why_tests_cant": "Quantifies over all interleavings and all failures.", "anchors": ["pkg/manager/manager_default.go", "pkg/spaces/trees/tree.go: Search", "pkg/spaces/default.go: Load"]}
{"id": "C74", "title": "What is mounted is the history", "statement": "In histories of concurrent commands as in C71, the lower layers of every mount are exactly the ancestors of its upper layer, nearest first, as every tree file that ever contains the upper layer has them; two mounts of the same working layer always show the same history.", "quantifier": "all executions of any number of concurrent commands, all pairs of moments", "why_tests_cant": "Quantifies over all interleavings and over pairs of moments.", "anchors": ["pkg/manager/manager_default.go: Commit, Checkout, Clone, GetWorkspaceFromPath", "pkg/mounts/mount_linux.go"]}
{"id": "C75", "title": "A workspace belongs to whoever made it", "statement": "After a successful init, clone, commit or checkout by some user, the top directory of the workspace concerned belongs to that user with mode 0755, whoever gave the commands before; no other mounted workspace changes its owner or permissions.", "quantifier": "all users, all disks reachable by histories of commands of any users, all workspaces", "why_tests_cant": "Quantifies over all histories of several users.", "anchors": ["pkg/mounts/mount_linux.go: Mount (chown)", "pkg/manager/manager_default.go: Commit, Checkout, Clone, CreateWorkspace"]}
{"id": "C76", "title": "Permissions given to a workspace stay", "statement": "Owner and mode that the user has set on the top directory of a workspace are the same after a commit or checkout in it, as they are for everything below it, and a clone has those of its source.", "quantifier": "all modes and owners, all reachable disks, all users", "why_tests_cant": "Quantifies over all attributes and histories.", "anchors": ["pkg/mounts/mount_linux.go: Mount (chown)", "pkg/layers/layer.go:54", "pkg/layers/manager.go"]}
{"id": "C77", "title": "Remains of interrupted commands are harmless", "statement": "Start with an empty store and let any commands run at the same time, fail, and be killed at any call, no two of them writing the same file at the same moment and no random ID coming up twice. If in the end no readable workspace record has lost its mount directory, then the store is one from which every guarantee about later commands holds: in particular, after any command has been killed, a workspace that still opens can be committed exactly under the usual condition and with the usual effect, and the same goes on through any number of further commands and kills.", "quantifier": "all executions of any number of concurrent commands with kills, failures, reboots and writes by users, followed by any commands", "why_tests_cant": "Quantifies over all interleavings, all kill points and everything that follows.", "anchors": ["pkg/manager/manager_default.go", "pkg/spaces/default.go: Save, Load", "pkg/mounts/mount.go"]}
{"id": "C78", "title": "A history that cannot be read is never written to", "statement": "If the tree file of a space cannot be read, then whatever commands run afterwards, at once or one after another, killed or not, the file keeps exactly its bytes, so that it can still be repaired by hand, and no command opens a workspace of the space. For a file that was cut off this holds even if reading and writing fail at any point.", "quantifier": "all spaces, all unreadable files, all later executions of any number of concurrent commands", "why_tests_cant": "Quantifies over all later executions of all commands.", "anchors": ["pkg/spaces/default.go: Load, Save", "pkg/manager/manager_default.go: GetWorkspaceFromPath, CreateWorkspace", "pkg/workspaces/workspace.go"]}
{"id": "C79", "title": "Commands of different spaces at the same time are as good as one after another", "statement": "Any number of init, clone, commit, checkout, branch, tag and reading commands run at the same time. If each opens a workspace of another space, and no two use the same path, then whatever the order of their calls, they give the answers and leave the disk that they give and leave if they run one after another, in any order whatever; each answer is one that the command can give when it runs alone. The same holds for commands that are killed.", "quantifier": "all disks that commands can have left, all families of separate commands of all users, all interleavings of their file system calls, all serial orders, all points at which each is stopped", "why_tests_cant": "Quantifies over all interleavings of the calls of any number of processes.", "anchors": ["pkg/manager/manager_default.go", "pkg/spaces/default.go", "pkg/workspaces/workspace.go", "pkg/commands/*.go"]}
{"id": "C80", "title": "A command line means what the conventions and the help say", "statement": "Every option has a long form --name (with =VALUE or the next word; an option without a value also alone) and perhaps a letter; letters can be joined, and the value of the last one may follow directly, after =, or as the next word; after -- everything is an argument; the last setting of an option counts; options and arguments may be mixed. A line is accepted exactly if it is written by these rules and is one of the documented forms of its subcommand, and then it asks for what that form says: the documented defaults (the directory is here, the branch is main, the reference is HEAD, the data directory is /var/lib/stackcrisp), --list before --show-current before --delete, -r before -a. A line has only one meaning, and global options mean the same before and after the subcommand.", "quantifier": "all lists of words, of any bytes", "why_tests_cant": "Quantifies over all command lines; states an equivalence between what is accepted and a description of what should be.", "anchors": ["pkg/commands/*.go", "pkg/commands/options/*.go", "pkg/utils/cmd/cmd_util.go", "cmd/stackcrisp/main.go"]}
{"id": "C81", "title": "A command that reports success has done what its words ask for", "statement": "If a process ends without an error, the disk is as its words ask: after init DIR a new empty workspace is at DIR on the branch, after clone SRC DIR another workspace of the same history is at DIR at the commit and on the branch of SRC, after commit the former working layer is a commit with the message, after checkout REF the workspace is at what REF means (and on REF if that is a branch), after branch and tag NAME REF the name is at what REF means and was free or forced, after branch -d and tag -d the names are gone and existed; listing commands have changed nothing. DIR and SRC are relative to the directory the process is in after -C.", "quantifier": "all command lines with names in UTF-8, all disks that commands, kills and users can have left, all working directories outside the data directory, whatever calls fail", "why_tests_cant": "Connects all command lines with all histories of all disks.", "anchors": ["pkg/commands/*.go", "pkg/manager/manager_default.go", "pkg/workspaces/workspace.go"]}
{"id": "C82", "title": "A refused command leaves no trace", "statement": "A command that is refused for what was asked of it leaves the data directory and the user's files as they were. This holds for commands in (and clones of) a directory that is no workspace, for checkouts of something that does not exist, for a single change of branches or tags that is not allowed, and for init on a file or a directory with something in it. It does not hold for a commit on a branch that cannot follow, which leaves a layer and a mount directory that nothing uses; for a clone to a directory with something in it, below a missing directory or to a link to a mount that is gone, which leaves a working layer in the history and a recorded workspace; and for init below a missing directory or on such a link, which leaves a whole space.", "quantifier": "all disks that commands, kills and users can have left, all paths, references and names", "why_tests_cant": "The leftovers are invisible to every command, so tests that look at answers do not see them; absence of change is about all parts of all disks.", "anchors": ["pkg/manager/manager_default.go: CreateWorkspace, Commit, Checkout, Clone", "pkg/spaces/default.go: CreateLayer, CreateMount", "pkg/mounts/mount.go: CreateSymlink"]}
{"id": "C83", "title": "Nothing is left over", "statement": "As long as every command succeeds or changes nothing, everything in the data directory is used: the layers are exactly the commits and working layers of the histories that can be read, every mount directory has the record of a workspace and every record a mount directory, and every space has a workspace. After a commit that is refused since its branch cannot follow it is no longer so: a layer is left that no history has.", "quantifier": "all histories of any number of commands, writes, changes of the user's files and restarts from an empty data directory, by any users", "why_tests_cant": "A global invariant of all histories; leftovers are invisible to every command.", "anchors": ["pkg/manager/manager_default.go: CreateWorkspace, Commit, Checkout, Clone, RemoveWorkspaceMount", "pkg/spaces/default.go: Init, CreateLayer, CreateMount", "pkg/layers/manager.go: Create"]}
{"id": "C84", "title": "The exit status of a command tells what happened", "statement": "A command of a user who is not root runs in a second process under sudo. If it exits with 0, the second process has run to its end and succeeded, whatever signals came, and what was asked for is done. Without signals it exits with 0 or 1, after the second process has ended, and with 0 exactly if that succeeded. An exit with 1 should mean that the command is over and has failed; this is violated by an interrupt: sudo is killed by a signal that it cannot pass on, the command exits with 1, and the second process does all of its work afterwards, or (where sudo has replaced itself by the program) is killed in the middle of it.", "quantifier": "all commands, all disks, all schedules of the processes and signals, both ways in which sudo starts a program", "why_tests_cant": "All interleavings of three processes and signals at any moment.", "anchors": ["cmd/stackcrisp/main.go: main", "pkg/utils/cmd/cmd_util.go: runAsRoot", "pkg/utils/sudo/sudo.go: RunAsRoot", "pkg/utils/context/signal.go: Notify"]}
{"id": "C85", "title": "A commit or checkout that is cut short leaves the workspace as before or as after", "statement": "A commit or checkout is killed at any moment, or ends early because any call fails. Then the path of the workspace should lead to it: as it was before, with the same files, or gone on to the new layer, with the files of the commit that it is then on. Proved: this is so (before the switch the history may already have the new commit or layer), except that the history of the space may be unreadable (C41), and that there may be nothing at the path, where putting the link to the new mount back is all that is missing. Violated: every commit and every checkout that succeeds passes through a moment in which there is nothing at the path, and killed there it leaves no workspace.", "quantifier": "all disks with any past, all workspaces, all commit messages and references, all moments, all failing calls", "why_tests_cant": "A kill at every call, and every combination of failing calls.", "anchors": ["pkg/commands/commit.go: NewCommitCommandWithOptions", "pkg/commands/checkout.go: NewCheckoutCommandWithOptions", "pkg/manager/manager_default.go: Commit, Checkout", "pkg/workspaces/workspace.go: Expand"]}
{"id": "C86", "title": "An init or clone that is cut short leaves its path alone or a complete workspace there", "statement": "An init or clone is killed at any moment, or ends early because any call fails. Then no other path and no existing layer has changed, and its own path is as it was, or a complete workspace is there: its record and history can be read, it is on a new working layer on top of the right commit, it is mounted and shows the files of that commit. At most the link to the mount is missing, where something had been at the path before. After an init the history is a new one with one branch; after a clone it is that of the source.", "quantifier": "all disks, all paths and branch names, all moments, all failing calls; for clone all disks with any past and all source workspaces", "why_tests_cant": "A kill at every call, and every combination of failing calls.", "anchors": ["pkg/commands/init.go: NewInitCommandWithOptions", "pkg/commands/clone.go: NewCloneCommandWithOptions", "pkg/manager/manager_default.go: CreateWorkspace, Clone", "pkg/workspaces/workspace.go: Expand"]}
{"id": "C87", "title": "init and clone do not take the path of a workspace away from it", "statement": "init and clone on a path that leads to a workspace are refused, and the workspace stays as it was. (init satisfies this for workspaces that show a file. It violates it for mounted workspaces that show none, as after another init; clone violates it for every mounted workspace, even the one that is cloned: the path then leads to the new workspace, and no path leads to the one that was there, with all that was not committed.)", "quantifier": "all disks with any past, all workspaces, all paths", "why_tests_cant": "All states of the workspace at the target.", "anchors": ["pkg/commands/init.go: NewInitCommandWithOptions", "pkg/commands/clone.go: NewCloneCommandWithOptions", "pkg/workspaces/workspace.go: Expand", "pkg/utils/fs/stat.go: IsEmptyDir"]}
{"id": "C88", "title": "commit and checkout do no harm while somebody works inside the workspace", "statement": "commit and checkout in a workspace in which a process has its working directory or an open file do their work or are refused without effect. (They satisfy this if the process is in another workspace, as with -C from elsewhere, and if they would be refused anyway. Else they violate it always: the new mount is in place, then the files of the old one are deleted before it turns out that it cannot be unmounted. The command fails, a commit is in the history with no files in it, and the old mount stays.)", "quantifier": "all disks with any past, all mounts in which processes work, all commits and keys", "why_tests_cant": "Every commit from a shell in the workspace; the effect depends on the order of deleting and unmounting.", "anchors": ["pkg/manager/manager_default.go: RemoveWorkspaceMount", "pkg/mounts/mount_linux.go: Umount", "pkg/commands/commit.go: NewCommitCommandWithOptions", "pkg/commands/checkout.go: NewCheckoutCommandWithOptions", "README.md: known problems"]}
{"id": "C89", "title": "Commands do not draw the IDs of other commands", "statement": "Each process draws IDs that no other process has drawn, so that every command makes new things. Violated: the generator is seeded with the time and keeps it modulo 2^31-1, so processes that start a multiple of 2.147483647 seconds apart draw the same IDs, and of any 2^31-1 processes two do; an init, clone, commit or checkout that draws the IDs of an earlier successful one always fails, however right it is. Proved: that is all that happens. A command whose second ID is that of a layer that is there fails, and changes nothing that was there; at most it leaves an empty directory. Of several commands at once that draw the same ID for their layer at most one gets further than that.", "quantifier": "all tables of the generator, all times, all commands, all disks, all schedules of any number of commands, all failing calls", "why_tests_cant": "The IDs of all processes that ever run, at any time.", "anchors": ["pkg/utils/uid/uid_128.go: init, NewUID128", "pkg/layers/manager.go: Create", "pkg/manager/manager_default.go: createSpace, createMount"]}
{"id": "C90", "title": "The reason of an error survives wrapping", "statement": "Through however many functions an error with a reason goes that wrap it, FromError gives back that very error, and the text of the result is its text behind those of the functions. For an error without reason anywhere inside, FromError gives the reason InternalError with the whole text. The text of an error whose reason has no colon and no bracket tells its code, reason and message. The error about a missing layer has the reason LayerNotFound wherever it is caught, and its text tells the ID of the layer. (If the reason has brackets, two different errors have the same text.)", "quantifier": "all errors, all chains of wrapping of any length, all codes, reasons and messages", "why_tests_cant": "Chains of any length; pairs of all texts.", "anchors": ["pkg/utils/errors/error.go: FromError, New, NewWithCode, Error", "pkg/layers/manager.go: Get, Delete", "pkg/layers/errors.go: ErrReasonLayerNotFound"]}
{"id": "C91", "title": "The program behaves like a small version control system", "statement": "Whatever users do with the program, in any order, from nothing on (init, clone, commit, checkout, branch and tag commands that succeed, commands that are refused, writing in workspaces, changing other files), there is a history of the same deeds of a small abstract machine, whose states are trees of commits with branches, tags and snapshots of files, and workspaces that stand on a commit and hold files; and after every deed what can be seen on the disk is exactly the state of the machine: the workspaces, their branches, commits and files, and the histories. If no call fails and the mount options fit into a page (C39), commit, checkout, clone to a free path and the branch and tag commands with one argument are accepted exactly if the machine can do them, and init on a free path always. So a commit checked out in any workspace at any later time brings back the files of the moment of the commit, and no deed changes the files of a workspace that it does not name. (Not among the deeds: checking out the working layer of a workspace, C35; commands that fail after they have saved, C42, C85 to C88; restarts, C47.)", "quantifier": "all sequences of deeds of any length by any users, all disks they start from, all contents of files, all failing calls", "why_tests_cant": "All histories of any length.", "anchors": ["pkg/manager/manager_default.go: CreateWorkspace, Clone, Commit, Checkout, GetWorkspaceFromPath", "pkg/workspaces/workspace.go: Expand", "pkg/spaces/default.go: Load, Save, CreateMount", "pkg/commands/branch.go: NewBranchCommandWithOptions", "pkg/commands/tag.go: NewTagCommandWithOptions"]}
{"id": "C92", "title": "Work that was not committed is not lost", "statement": "What a user has written in a workspace and not committed is never lost by a command that succeeds: a checkout keeps it in the workspace or is refused, and after a checkout or a restart it can be brought back. (The first part does not hold: checkout asks nothing and shows the files of the commit, and no branch, tag or commit refers to what was there. But the layer the workspace worked in is never changed again by anyone, and checking out its ID, in any workspace of the same history and at any later time, shows exactly the files that were there.)", "quantifier": "all reachable disks, all files in the workspace, all later histories (for the layer: all concurrent executions with failing calls and crashes), all workspaces of the same history, restarts", "why_tests_cant": "All later histories and all contents of files.", "anchors": ["pkg/manager/manager_default.go: Checkout", "pkg/commands/checkout.go: NewCheckoutCommandWithOptions", "pkg/spaces/default.go: CreateMount"]}
{"id": "C93", "title": "Commands are cheap and remove nothing", "statement": "Commands copy no files: a commit, checkout or clone that succeeds adds exactly one layer, which is empty, and leaves every other layer as it is; an init adds two. A commit or checkout puts one mount directory in the place of another. However many commands run, at the same time or one after another, whatever fails and whichever are killed, there are never more new layers than two for each init and one for each clone, commit and checkout that was started, never more new mount directories than one for each of these, never more new spaces than one for each init, and branch, tag and log commands add none. No layer is ever removed.", "quantifier": "all reachable disks; all concurrent executions of any number of commands with failing calls and crashes", "why_tests_cant": "All interleavings of any number of commands.", "anchors": ["pkg/layers/manager.go: Create", "pkg/manager/manager_default.go: CreateWorkspace, Clone, Commit, Checkout, createMount, RemoveWorkspaceMount", "pkg/spaces/default.go: Init, CreateLayer, CreateMount"]}
{"id": "C94", "title": "A workspace can be moved, and any link to it will do", "statement": "A workspace is where its link is. If the user moves the link to another path, or the directory it is in, the workspace is at the new path with the same identity, history, branch and files, commands given there work on it and leave it there, and the old path is no workspace any more; init, clone, commit and checkout make links that do not depend on where they are. Two links to a workspace lead to the same workspace: what is seen through one is seen through the other, branch and tag commands do the same through both, and nothing that is done through one takes the workspace away from the other.", "quantifier": "all reachable disks, all changes of the user's files that leave the link at some path, all commands", "why_tests_cant": "All histories and all changes of the user's files between two commands.", "anchors": ["pkg/manager/manager_default.go: GetWorkspaceFromPath, Commit, Checkout, RemoveWorkspaceMount", "pkg/workspaces/workspace.go: Expand", "pkg/mounts/mount.go: CreateSymlink"]}
{"id": "C95", "title": "A node keeps what was put into it", "statement": "Whatever methods of Node are called, in whatever order and on whatever nodes: a child is there iff it was added and has not been deleted since, and of several with one ID it is the first; AddChild and DeleteChild say truthfully whether they changed anything; the parent is the one that was set last; an annotation or a piece of data has the value that was given last, one by one or all at once; a node is a root iff it has no parent and a leaf iff it has no child; a call on one node changes no other; and every call on a node that exists returns.", "quantifier": "all sequences of calls of NewNode and the methods of Node, all IDs, keys and values", "why_tests_cant": "All sequences of calls, of any length, on any number of nodes, with IDs that may coincide.", "anchors": ["pkg/spaces/trees/node.go: NewNode, Parent, Children, HasChild, IsRoot, IsLeaf, SetParent, AddChild, DeleteChild, AddAnnotation, SetAnnotations, AddData, SetData"]}
{"id": "C96", "title": "Adding a node adds all that hangs below it", "statement": "AddNode of a node that has children makes the node and all its descendants findable by Get, leaves what Get says about all other IDs, tags and branches as it was, and returns without error if what hangs below the node is a tree that the parent is no part of. (Violated: if the parent is the node itself or hangs below it, the call never returns; and a node whose ID a child of the parent has already is accepted, is found by Get, but is no child of the parent.)", "quantifier": "all sets of nodes, however they are linked, all trees", "why_tests_cant": "All shapes and sizes of what hangs below the node.", "anchors": ["pkg/spaces/trees/tree.go: AddNode, updateIndexes, Get"]}
{"id": "C97", "title": "Files of other versions and files edited by hand are understood", "statement": "Two tree files, or two workspace records, that differ only in fields that the program does not know, in the order of the fields, in upper and lower case of field names, in a null where a text is expected, or in a field, an annotation, a branch or a tag given twice (of two texts the second counts, two maps are put together), at any depth, are read in the same way. A null for the nodes, the branches or the tags of a tree file takes back what the file says before it. (Violated: what the program does not know is not kept; the next save drops it.)", "quantifier": "all JSON texts within the nesting limit, all differences of these kinds in any combination", "why_tests_cant": "Unbounded nesting, and any combination of the differences.", "anchors": ["pkg/spaces/default.go: Load, Save", "pkg/spaces/trees/dump.go: TreeDump, NodeDump", "pkg/manager/manager_default.go: WorkspaceInfo, loadWorkspaceInfo"]}
{"id": "C98", "title": "Exactly the JSON texts are read, however they are laid out", "statement": "What Load and the reader of workspace records get from a file depends only on its JSON value: white space between tokens and the spelling of strings make no difference. What a string says is given by RFC 8259 and RFC 3629: characters stand for themselves, escapes for what they name, the two halves of a surrogate pair for one character; a byte that is no UTF-8 and a half alone for U+FFFD. No text has two readings. A file that is no JSON text by the grammar of RFC 8259 is refused with an error. Every file that the program writes is such a text.", "quantifier": "all byte strings", "why_tests_cant": "All texts of any length and nesting.", "anchors": ["pkg/spaces/default.go: Load, Save", "pkg/manager/manager_default.go: loadWorkspaceInfo, saveWorkspaceInfo"]}
{"id": "C99", "title": "Changing one node changes no other node", "statement": "AddAnnotation, SetAnnotations, AddData, SetData, SetParent, AddChild and DeleteChild on a node change what this node shows and nothing that another node or the tree shows, and AddTag, DeleteTag, AddBranch and DeleteBranch change no node, no matter which calls came before and what the caller did with the maps and slices that they got from the API or passed to AddData. A map that was passed to SetAnnotations or SetData is kept, not copied: the claim is for maps that are passed to one setter once and not written by the caller afterwards (two nodes that are given the same map do share it). All methods of the tree, run on maps that are references, give the results that they would give on maps that are values.", "quantifier": "all sequences of calls of the tree and node API and of writes of the caller to the maps and slices that they hold, any number of nodes", "why_tests_cant": "Sharing shows only after some later write to another node; quantifies over all interleavings of calls and of writes through references that the caller holds.", "anchors": ["pkg/spaces/trees/node.go:79-235", "pkg/spaces/trees/tree.go:120-377"]}
{"id": "C100", "title": "Both text forms of an ID write the same number", "statement": "An ID is a number of 128 bits. Hex() writes it with 32 digits 0-9a-f to the base 16, Base32() writes it, with two zero bits behind it, with 26 digits A-Z2-7 to the base 32, most significant digit first; these are the only such texts. String() is the hex form, followed by the base32 form in parentheses. The hex decoder gives for 32 digits of either case the number they write. The base32 decoder gives an ID exactly for 26 digits, and this is the number they write without its last two bits.", "quantifier": "all IDs, all byte strings", "why_tests_cant": "All 2^128 IDs and all texts.", "anchors": ["pkg/utils/uid/uid_128.go: Hex, Base32, DecodeUID128FromHex, DecodeUID128FromBase32"]}
{"id": "C101", "title": "The files have one documented layout, for writing and for reading", "statement": "For every tree whose names and texts are valid UTF-8, the saved tree file is a JSON object with exactly the members nodes (the root object, or null for a tree without nodes), branches and tags (each an object from name to ID, or null); a node object has the ID as 32 lower-case hex digits, children only if there are any (each child once), annotations and data only if not empty, data values in base64 or null, and nothing else. Conversely every JSON text of this layout, in any order of members, by whatever program it was written, loads as exactly the tree it shows (up to the nesting limit of the JSON reader), and no file shows two trees. The same for the six members of a workspace record.", "quantifier": "all trees built by the API; all JSON values and texts of the layout; all rooted trees; all records", "why_tests_cant": "All trees, all orders of members, all texts; tests compare a handful of files that this program wrote itself.", "anchors": ["pkg/spaces/trees/dump.go: TreeDump, NodeDump, Dump, Load", "pkg/spaces/default.go: Load, Save", "pkg/manager/manager_default.go: WorkspaceInfo"]}
{"id": "C102", "title": "Calls on a shared tree appear to happen one after another", "statement": "Any number of goroutines call methods of one tree, and are interrupted between any two accesses to its memory. Every call appears to happen at one moment between the call and its answer: the answers, and the tree that is left, are those of the same calls made one after another. (True of Get, GetByBranch, GetByTag, Root, Tags, Branches, AddNode, AddTag, DeleteTag, AddBranch, UpdateBranch and DeleteBranch. Violated by Search, which looks at IDs, tags and branches one after the other and can miss a name that is there all the time; and by AddNode for those who look at the nodes themselves, who can see a child without a parent.)", "quantifier": "all executions of any number of goroutines with any calls, all trees", "why_tests_cant": "Quantifies over all interleavings of the memory accesses of all calls; a race that loses an update shows once in a million runs.", "anchors": ["pkg/spaces/trees/tree.go:91-377", "pkg/spaces/trees/node.go:74-158"]}
{"id": "C103", "title": "A listing shows one moment", "statement": "A listing (log, branch, tag) that runs while other commands run shows what it would have shown at one moment between its start and its end, if the other commands had stopped there. (True beside one other command, which may also fail or be killed, and any number of listings: beside a commit, for instance, the listing shows the workspace before it, or after it, or with the commit in the history and the workspace still on the old layer. Beside more commands only every file that is read is of one moment: when a commit and then a tag overtake a listing, it shows the old layer with the new tag, which were never there together.)", "quantifier": "all interleavings of a listing with any commands, killed at any call; all reachable states", "why_tests_cant": "Quantifies over all points at which other processes run between the reads of the listing; a test cannot hold a process between two reads of one function.", "anchors": ["pkg/manager/manager_default.go:166-245", "pkg/commands/log.go:35-88", "pkg/commands/branch.go:31-100", "pkg/commands/tag.go:29-75"]}
{"id": "C104", "title": "Commands find back to their working directory", "statement": "A command that is run inside a workspace leaves its working directory for / while it mounts and unmounts, and goes back. With -C DIR, and whenever the environment variable PWD names the working directory by the path of the workspace, the commands work on exactly that path (not on the mount point behind the link), the detour never makes a command fail that would otherwise succeed, and after a successful commit or checkout the process stands in the new mount of the workspace; after clone and init it stands where that path leads. (clone, init, branch and tag do so whatever PWD says. Violated if PWD is not set, does not name the working directory, or names it by the mount point, as after sudo without its environment, cd -P, or with -C $(realpath DIR): then commit inside a workspace always fails in the end, but only after the commit was recorded in the history, and the path of the workspace still leads to the mount whose upper layer is now that commit; checkout always fails, too, and leaves the workspace where it was.)", "quantifier": "all reachable states, all runs, all values of PWD, all paths outside the data directory", "why_tests_cant": "All relations between PWD, links and mounts, in all states; a test cannot mount, and its own process has a fixed PWD.", "anchors": ["pkg/utils/cmd/cmd_util.go:78-102", "pkg/workspaces/workspace.go:91-130", "pkg/manager/manager_default.go:248-290", "pkg/commands/commit.go", "pkg/commands/checkout.go", "pkg/commands/clone.go", "pkg/commands/init.go"]}
{"id": "C105", "title": "Calls on a shared node appear to happen one after another", "statement": "Any number of goroutines call Children, HasChild, IsLeaf, AddChild, DeleteChild, Annotations, AddAnnotation, SetAnnotations, Data, AddData, SetData, Parent and SetParent on any nodes, and are interrupted between any two accesses to memory. Every call appears to happen at one moment between the call and its answer: the answers, and the maps that are left, are those of the same calls made one after another. No call assigns to a nil map or finds a map changed while it copies it. (True unless annotations or data are set to nil: Annotations and Data look whether their map is nil before they take the lock, and beside SetAnnotations(nil) they can return an empty map which was never there. Nothing else is out of order then, and none of these calls crashes. Parent and SetParent have no lock. The same holds for them as long as no call makes a root of a node that is none or the reverse; while a node gets its first parent, Parent can return a value that is not nil and has no node in it, and calling its methods crashes.)", "quantifier": "all executions of any number of goroutines with any calls, all nodes and contents", "why_tests_cant": "Quantifies over all interleavings of the memory accesses of all calls.", "anchors": ["pkg/spaces/trees/node.go:74-103", "pkg/spaces/trees/node.go:106-122", "pkg/spaces/trees/node.go:126-235"]}
{"id": "C106", "title": "A command below the top of a workspace is refused", "statement": "A workspace is the link that the user gave the name of; a directory inside it is none. A command given in such a directory (commit, checkout, branch, tag, log, clone of \".\") is refused with an error and changes nothing. (True if the process knows the directory by the path of the workspace. If it knows it by its real path below the data root - PWD is lost by sudo, or the directory was given by realpath - commit and checkout take the directory for the path of the workspace. In a directory that is not empty they record the new layer, fail, and leave the workspace on the layer that is now a commit. In an empty directory they report success, but the directory has been replaced by a link inside the commit, and the workspace is no longer found at its path. branch, tag and clone do there exactly what they do at the top.)", "quantifier": "all disks, all faults for the refusal; all reachable disks, workspaces, directories at any depth and runs for the violation", "why_tests_cant": "Needs every directory inside every workspace and the effects of removing and linking inside an overlay that is itself being committed.", "anchors": ["pkg/manager/manager_default.go:167-245", "pkg/workspaces/workspace.go:80-118", "pkg/commands/commit.go:25-57", "pkg/commands/checkout.go:24-58"]}
{"id": "C107", "title": "A workspace can be inside another workspace", "statement": "A workspace whose path is inside another workspace works like any other: init makes one at a free path inside a workspace, and clone one of that workspace or another, and commit, checkout, branch, tag and clone in it have the result that they have elsewhere, it shows the same files after a commit, a new branch or tag and a clone of it, and the files of the commit after a checkout, and the outer workspace keeps its workspace, its history and all its files but the link at that path. A commit in the outer workspace leaves the inner one as it is, and so does a checkout of a commit that has the same link at that path. After a checkout in the outer workspace of any of its commits, the inner workspace can still be used. (The last is false. A commit of the outer workspace holds the link of the moment, and every commit and checkout in the inner one removes what that link leads to: going back to an older commit of the outer workspace makes the path a broken link. And a checkout of a commit without the link leaves the inner workspace with what was not committed in it, but with no path to it. Neither is refused or warned of.)", "quantifier": "all reachable disks, all pairs of workspaces of which one is below the other at any depth, all keys and all runs on a working system", "why_tests_cant": "Needs every history of two workspaces of which one is a file of the other.", "anchors": ["pkg/workspaces/workspace.go:80-118", "pkg/manager/manager_default.go:167-245", "pkg/commands/commit.go:25-57", "pkg/commands/checkout.go:24-58", "pkg/commands/init.go:26-61", "pkg/commands/clone.go:25-64", "pkg/commands/branch.go:25-60", "pkg/commands/tag.go:25-52"]}
{"id": "C108", "title": "Data directories do not mix", "statement": "With --data-root the program can be used with several data directories on one machine; what is done with one leaves the others alone. Two ways to write a data directory mean the same one exactly if they are the same path after cleaning. A command run in a workspace of one data directory with the name of another is refused and changes nothing. Whatever is done with one data directory, also if calls fail or the machine restarts, the workspaces of the other open as before and show the same files; all that holds of a data directory alone on the machine holds of each. (The code violates this where a path is taken: init with another data directory replaces the link of a workspace that shows no files, and clone replaces that of any workspace, and the workspace is then at no path.)", "quantifier": "all reachable pairs of data directories of which neither has its mounts inside those of the other, all interleavings of commands, users and faults on them", "why_tests_cant": "Needs every history of two data directories that share the paths of the user.", "anchors": ["pkg/commands/options/global.go:47", "pkg/manager/manager_default.go:33-46", "pkg/manager/manager_default.go:167-245", "pkg/commands/init.go:41-43", "pkg/workspaces/workspace.go:80-118"]}
{"id": "C109", "title": "A data directory can be moved", "statement": "The data directory can be given another name or copied to another place while nothing is mounted, and used from there with --data-root: every workspace opens as before, with its ID, branch, working layer and history, every commit has the files it had, and work that was not committed is there. (The code violates the first part: the link of a workspace is absolute, so after the move every command in every workspace is refused, and changes nothing, until the user makes the link again by hand. With the link made again, at any path, the workspace is the same, a commit holds what the workspace showed before the move, and a checkout of any commit or of the working layer shows the files it had, at any later time, provided the mount options fit with the new path in them. Where the new path is too long for a commit, nobody can check it out.)", "quantifier": "all reachable data directories, workspaces, commits, new paths, later commands and writes", "why_tests_cant": "Needs every data directory that any history can leave, and every new path; and what any later commands make of it.", "anchors": ["pkg/commands/options/global.go:47", "pkg/manager/manager_default.go:115-123", "pkg/manager/manager_default.go:166-245", "pkg/manager/manager_default.go:411-435", "pkg/mounts/mount.go:71-76", "pkg/mounts/mount.go:129-138"]}
{"id": "C110", "title": "A backup of the data directory can be restored", "statement": "A copy of the data directory, made at one moment - while no command runs, or while commands run that do not write the same file - can be put in its place again at any later time: every workspace is then what it was when the copy was made, with its history, files and work that was not committed. (Violated for every workspace that has made a commit or a checkout since: its link leads to a mount the copy does not have, the path is no workspace any more, and every command there fails. With the old link made again the workspace is the one of the copy. The restored data directory has all the properties of one that was never replaced, and a checkout of any of its commits or working layers shows the files it had when the copy was made.)", "quantifier": "all reachable data directories, workspaces, commits and checkouts since the copy, later commands and writes", "why_tests_cant": "Needs every data directory that any history can leave, every later state of the links, and what any later commands make of it.", "anchors": ["pkg/manager/manager_default.go:115-123", "pkg/manager/manager_default.go:166-245", "pkg/manager/manager_default.go:411-435", "pkg/workspaces/workspace.go:80-118", "pkg/mounts/mount.go:129-138"]}
{"id": "C111", "title": "The link of a workspace belongs to its user", "statement": "The program runs as root, but the link that it makes belongs to the user who gives the command: after a successful init, clone, commit or checkout the link at the path belongs to that user, whoever owned it before. No command, however it ends, changes the owner of another link or gives a link to somebody else, and branch and tag change no owner. A command that is cut short leaves the link with its user.", "quantifier": "all users and owners, all disks, all failing calls, every moment of a kill", "why_tests_cant": "Quantifies over all disks, answers of the kernel and moments of a kill.", "anchors": ["pkg/mounts/mount.go: CreateSymlink (symlink, lchown)", "pkg/workspaces/workspace.go: Expand", "pkg/commands/init.go, clone.go, commit.go, checkout.go"]}
{"id": "C112", "title": "A workspace can be committed to any number of times", "statement": "On a working system, in a workspace that follows its branch, a commit succeeds however many commits were made there before, and a commit that fails leaves no trace in the history.", "quantifier": "all disks and histories, any number of commits, any writes in between, any number of attempts", "why_tests_cant": "The limit depends on the number of commits made before and on the length of the path of the data directory; a test makes a few commits in one directory.", "anchors": ["pkg/mounts/overlay.go, overlay_linux.go: lowerdir option", "pkg/manager/manager_default.go: Commit", "pkg/spaces/default.go: CreateMount"]}
{"id": "C113", "title": "A command that was cut short can be repeated", "statement": "After a commit, checkout, init or clone was killed at any moment, or failed because a call failed, the same command run again on a working system succeeds: what was the working layer becomes a commit, no file is lost, and nothing else in the history changes; a checkout ends where the first attempt would have ended; after an init or clone the new workspace is there already, or it is after the repetition; so for a change of a branch or tag.", "quantifier": "all disks and histories, all moments of the kill, all failing calls, all messages and keys", "why_tests_cant": "There are dozens of moments at which a command can be killed, and what is left at each of them is the starting point of the second run; a test would have to kill the program at each.", "anchors": ["pkg/manager/manager_default.go: Commit, Checkout, RemoveMount", "pkg/workspaces/workspace.go: Expand", "pkg/spaces/default.go: CreateMount, Save"]}
{"id": "C114", "title": "Giving the same branch or tag command twice does no harm", "statement": "After branch -f NAME REF or tag -f NAME REF succeeded, the same command succeeds again and leaves the same history, whatever REF is - also NAME itself, or a name that NAME now hides. After branch or tag without -f, or with -d, the same command is refused and changes nothing on the disk. (Names are valid UTF-8.)", "quantifier": "all reachable disks, histories, names and references", "why_tests_cant": "The reference can be an ID, a tag, a branch in several spellings or the name that is being set, in any history, and setting the name can change which of them is meant.", "anchors": ["pkg/workspaces/workspace.go:231-340", "pkg/commands/branch.go:25-60", "pkg/commands/tag.go:25-52"]}
{"id": "C115", "title": "A change of a branch or a tag can be taken back", "statement": "A tag that there was not, or a branch that there was not and that the workspace is not on, can be made and deleted: both commands succeed and the history is what it was before. A tag or branch that is deleted can be made again at the ID of its commit, and the history is what it was before. Nothing else on the disk changes. (Names are valid UTF-8.)", "quantifier": "all reachable disks, histories, names and references", "why_tests_cant": "Needs every history in which a name can be made or deleted, and that the ID of every commit still names it when no branch or tag does.", "anchors": ["pkg/workspaces/workspace.go:231-340", "pkg/commands/branch.go:25-60", "pkg/commands/tag.go:25-52"]}
{"id": "C116", "title": "Where a checkout leads does not depend on the way there", "statement": "After any successful checkout, a checkout of a branch, tag or commit by its name or ID gives what it would have given before: the same commit, the same branch, the same files, the same names in the history, and no layer changes. So after a checkout of anything else, checking out the branch that the workspace was on brings its last commit and its files back, the workspace is on the branch and can commit to it, and the layer with what was not committed is as it was. (HEAD means another commit then. The key is not written like the ID of a layer that is not there, and the mount options fit.)", "quantifier": "all reachable disks, histories, keys and commits", "why_tests_cant": "Quantifies over all histories and pairs of keys; a test cannot mount.", "anchors": ["pkg/manager/manager_default.go: Checkout", "pkg/workspaces/workspace.go: Search, SetBranch", "pkg/commands/checkout.go:24-58"]}
{"id": "C117", "title": "Two changes of different names can be made in either order", "statement": "Two changes of branches or tags are asked for one after the other, in one workspace or in two of a space, and they have to do with different names: they set or delete different ones, and the reference in neither can mean the name in the other. In the other order the same ones are accepted and refused, and the history is the same in the end, as both workspaces see it; neither workspace moves, and nothing else changes on the disk. (Names are valid UTF-8, and reading the references as IDs does not crash.)", "quantifier": "all reachable disks, histories, pairs of workspaces and pairs of changes", "why_tests_cant": "Quantifies over all histories and all pairs of commands and references; a test tries a few pairs in a few histories.", "anchors": ["pkg/workspaces/workspace.go:231-340", "pkg/commands/branch.go:25-60", "pkg/commands/tag.go:25-52"]}
{"id": "C118", "title": "Work can go on on a new branch", "statement": "branch NAME REF with a new name, checkout NAME and commit, one after the other, all succeed. After the checkout the workspace shows the files of the commit that REF meant and is on the new branch, and no layer has changed, also not the one with what was not committed. After the commit the new branch points to the new commit, its parent is what REF meant, and every other branch and every tag is where it was. So after tag NAME REF, checkout NAME shows the files of the commit that REF meant. (NAME is valid UTF-8, not HEAD and not written like an ID; nothing else has this name; the mount options fit.)", "quantifier": "all reachable disks, histories, names, references and commits", "why_tests_cant": "Quantifies over all histories, names and references; a test cannot mount.", "anchors": ["pkg/workspaces/workspace.go:231-340", "pkg/manager/manager_default.go: Checkout, Commit", "pkg/commands/branch.go:25-60", "pkg/commands/checkout.go"]}
{"id": "C119", "title": "Changing branches and tags does not stop work", "statement": "A change of a branch or tag, in any workspace of the space, does not make a workspace refuse commits that it accepted before. (The code violates this for branch -f with the branch that the workspace is on: after it the branch can point to something that is not an ancestor of the working layer, and every commit is refused.)", "quantifier": "all reachable disks, histories, workspaces and changes", "why_tests_cant": "Whether a commit is accepted depends on the whole history and on the branch; the change can be any, in the same workspace or in another.", "anchors": ["pkg/workspaces/workspace.go:231-340", "pkg/spaces/trees/tree.go: UpdateBranch", "pkg/manager/manager_default.go: Commit"]}
{"id": "C120", "title": "Work can be handed over by a tag", "statement": "What is committed in one workspace and tagged there with tag NAME HEAD can be had in another workspace of the space with checkout NAME: on a working system both commands succeed, and the other workspace shows exactly the files that the first one showed before its commit.", "quantifier": "all reachable disks, histories, pairs of workspaces of a space, free names and commits no ancestor of which is a working layer", "why_tests_cant": "Three commands in two workspaces go through the stored history, two mounts and the layers; a test sees one pair of workspaces and one history.", "anchors": ["pkg/manager/manager_default.go: Commit, Checkout", "pkg/commands/tag.go: runAddTag", "pkg/workspaces/workspace.go: Search, AddTag"]}
{"id": "C121", "title": "A workspace can always go back to the empty start", "statement": "After init, and whatever else happens while no call fails, a checkout of the first layer of the space succeeds in every workspace of the space and shows no files. The ID of the first layer is a name for it that cannot be deleted or moved.", "quantifier": "all reachable disks, later histories of commands, writes and reboots, workspaces of the space and names of the first layer", "why_tests_cant": "Nothing in the code says that the first layer stays empty; it follows from what every command mounts as its writable layer, in every history.", "anchors": ["pkg/manager/manager_default.go: CreateWorkspace, Checkout", "pkg/spaces/default.go", "pkg/spaces/trees/tree.go"]}
{"id": "C122", "title": "A commit shows the same files everywhere", "statement": "When the same commit is checked out in two workspaces of a space, or twice in one, under whatever names and with whatever happening in between while no call fails, the second checkout shows exactly the files that the first one showed. So does a new clone of a workspace whose last commit it is. (The commit and those under it are not working layers of a workspace.)", "quantifier": "all reachable disks, histories, workspaces, references to the commit and executions in between", "why_tests_cant": "The files of a checkout come from layers that many commands may have touched meanwhile; a test compares two moments of one history.", "anchors": ["pkg/manager/manager_default.go: Checkout, Clone", "pkg/spaces/default.go", "pkg/workspaces/workspace.go: Search"]}
