# Design: a Lean 4 model of yhlooo/stackcrisp

Contents: 1 what is modelled, 2 what is not, 3 how properties are stated, 4 proof methods, 5 trusted base, 6 where code and properties
disagree, 7 testing the theorems.

## 1. What is modelled

Every definition cites the file and lines of /repo that it models and says what it simplifies.

| Lean (lean/Verif/...) | Go | Modelled as |
|---|---|---|
| `Go/Basic` | strings, maps, outcomes | byte lists; association lists that may be nil; `ok / err / panic / diverge` |
| `Go/Hex`, `Go/Base32`, `Go/Base64` | `encoding/hex`, `encoding/base32`, `encoding/base64` as far as called | functions on byte lists, including the quirks of `NoPadding` decoding |
| `Go/Sort` | `sort.Strings`, `sort.Slice` | any sorting gives the same result on distinct keys |
| `Uid` | `pkg/utils/uid` | functions; slice-to-array conversion is a panic |
| `Tree/Model` | `pkg/spaces/trees/node.go`, `tree.go` | a heap of node objects with parent and child pointers, and three index maps |
| `Tree/Spec` | - | specification: parent function, annotations, tags, branches, keyed by ID |
| `Tree/Dump`, `Tree/DumpLoop` | `pkg/spaces/trees/dump.go` | Dump as a relation (map order is a free choice) and as the level loop over memory cells; Load as a function |
| `Json/*` | `encoding/json`, `unicode/utf8` as far as used by Save, Load and the workspace record | byte-level encoder and decoder with the nesting limit |
| `Json/Grammar`, `Json/Spell`, `Cli/Number` | - | specifications: RFC 8259, RFC 3629, Go's spelling of numbers and truth values |
| `Space/Model` | `pkg/spaces/default.go` | functions on the tree |
| `Layer/Model` | `pkg/layers` | a directory of arbitrary entries |
| `Ws/Model`, `Ws/Branch` | `pkg/workspaces/workspace.go`, `branch.go` | functions and relations on the tree |
| `Ws/Commit`, `Ws/Time` | `pkg/workspaces/commit.go`, `pkg/commands/log.go` | history and text of the log; RFC 3339 |
| `Mount/Model` | `pkg/mounts`, and the option parser of the kernel | functions on strings |
| `Fs/Path` | `path/filepath`, `pathToMountID` | functions on components |
| `World/Disk`, `World/Prog`, `World/Manager` | `pkg/manager/manager_default.go`, `pkg/layers`, `pkg/spaces`, `pkg/mounts`, the `RunE` functions of `pkg/commands` | programs that make one file-system call at a time on a disk |
| `Go/Rand` | `NewUID128` with `math/rand` | the generator with its seed; its table is a parameter |
| `World/Repeat` | what the commands do before their first layer is there | predicates on traces |
| `World/Inside` | processes with their working directory in a mount | the same programs, where an unmount fails just if somebody is inside |
| `World/Cwd` | the working directory of the process itself: `os.Getwd`, `os.Chdir`, `PWD` (`pkg/utils/cmd/cmd_util.go:78-102`) | the same programs, where going back to a path succeeds just if it leads somewhere |
| `World/Below` | directories below the top of a mount | the same programs, where stat, remove, symlink and lchown answer for what a mount shows |
| `World/Pool` | several processes | any number of such programs, interleaved call by call, with kills |
| `World/Beside` | a listing beside other processes | the same programs, interleaved call by call, with the list of all disks in between |
| `World/History` | a user's day | finished commands, writes into workspaces, restarts of the machine |
| `Cli/*` | `pkg/commands`, `pkg/commands/options`, `pkg/utils/cmd`, `pkg/utils/sudo`, and `cobra` and `pflag` as far as used | functions from command lines to jobs |
| `Misc/Locks`, `Race`, `Alias` | the locks and maps of `pkg/spaces/trees` under concurrency | lock traces; interleaved atomic calls; a memory of shared cells |
| `Misc/AliasTree` | the methods of the tree on a memory of references | the same methods, where maps and slices are cells |
| `Misc/Linear` | the methods of the tree in goroutines | lists of memory accesses between taking and releasing locks, interleaved |
| `Misc/NodeLock` | the methods of nodes in goroutines | single memory accesses, with and without their lock, interleaved |
| `World/Process` | `cmd/stackcrisp/main.go`, `runAsRoot`, `pkg/utils/sudo/sudo.go` | the user's process, `sudo` and root's process, interleaved, with exit codes and signals |
| `Misc/Signal` | `pkg/utils/context/signal.go` | the goroutine beside the runtime |
| `Misc/Errors` | `pkg/utils/errors`, the error of `pkg/layers` | chains of wrapped errors |
| `Misc/Prepare` | `Prepare`, `doPrepare` | calls on a small disk, several at once |

### The disk

A `Disk` holds: the tree file of each space, the record of each mount directory, the mount table (upper layer and stack), the content of
each layer (a map from paths to entries, with whiteouts), the entries outside of the data directory, and the set of random IDs used so
far. One `Step` is one call. `Faults` says which things may go wrong: `io` (any call may fail, a write may be cut short), `busy` (unmount
may be refused), `rep` (random IDs may repeat). A killed command stops between two calls; a killed write leaves a prefix.

## 2. What is not modelled

* Permissions of files, xattrs, hard links, timestamps of files. Files are bytes, directories or symbolic links. Of owners and modes only those of
  directories (`Attr`, C75 and C76) and the owners of the links to workspaces (C111) are modelled; whether a call is permitted is not: every call is made as root.
* Log output on stderr (`logr`, `logrus`), `pkg/utils/log`, wording of errors except in C90. In the programs an error is its kind.
* `sudo_windows.go`, `mount_notlinux.go`, `overlay_notlinux.go`: other systems.
* `--help`, `--version`, shell completion and help texts, except where a property quotes them.
* Wall-clock time: the date of a commit is an input.
* Block-level reordering after a power failure; a torn file is a prefix.
* Go's memory model beyond races on whole fields.

### Parameters and assumptions

* Random IDs: `NewUID128` draws from `math/rand`, seeded with the time. In the programs a draw gives any ID; `rep = false` says that it was never drawn
  before. What holds of all commands in sequence (`Past`, so the second part of `Reachable`) is proved for IDs that repeat as well. `rep = false` is
  assumed where a command is said to succeed, and for what ran at once (`Legacy`). `Go/Rand` models the generator itself: it does repeat (C89).
* `cobra` 1.8.0, `pflag` 1.0.5 and the Go standard library are written from their documentation, since they are not in /repo. `exec.CommandContext` kills its process when the context is done (its documentation). The directory given to `-C` is taken to exist. `sudo` is taken to run the program as root
  in the same directory with the given words.
* What `time.Parse` accepts beyond strict RFC 3339, and how a date is shown, are parameters.
* An overlay mount shows the merge of its layers, topmost first, and writes go to its upper layer only.
* `Env.Neat`: the data directory is an absolute clean path.

## 3. How properties are stated

The statements speak about what a user sees: `Gets E d cwd path w` (opening the workspace at a path gives `w`), `Disk.lists` (what a
mounted workspace shows), `ATree` (parent, tags, branches by ID), bytes of files. The specification is separate from the model's helpers:
`Tree/Spec`, `Ws.Resolves`, `EditsAll`, `NewHistory`, `TagsGone`, `IsLine`, `paragraphs` and so on.

`Reachable E d`: some history leads from an untouched machine to `d`. It has two parts.

* First anything may have happened (`Legacy`): any number of commands at once, killed at any call, with failing calls, torn writes, reboots and
  writes by users. Conditions: no random ID comes up twice; no write fails half-way into a file that another command has filled since it was
  emptied (`Sys.Tidy`); at the end no readable record has lost its mount directory, and no tree file has the rest of a longer one behind a whole
  one (`Orderly`). If no two commands write the same file at the same moment, the conditions on tree files hold by themselves (`C77_apart`).
* Then commands one after another (`Past`): failing commands, refused unmounts, repeated random IDs, restarts, arbitrary writes by users; each command
  may be given by another user (`Env.as`). No call fails by chance here.

Theorems about commands assume `Reachable` for the start and give their conclusion for one later command with any faults, where not said otherwise.
C77 says that such disks stay such disks when commands are killed or run at once. C71 to C74 are about all moments of histories of any number of
commands at once (`Sys.Tidy`, from an empty store); commands one after another are a special case (`C71_one_after_another`).

Beside each theorem an `example` shows that its hypotheses are met by a non-trivial case. For commands these are in `Props/Examples` and
`Props/MoreExamples` and the other files with such names: one history with `init`, a write, `commit`, `clone` and `checkout`, shown to exist.

A theorem whose name ends in `_partial` proves part of its property; its comment says what is missing. A theorem with `_violated_` in its name
proves that the full property is false for this code.

## 4. Proof methods

* Laws over all inputs by list induction (C01-C07, C17-C20, C37-C39, C44, C50, C64-C67).
* Invariants by induction over operations and histories (C08, C13, C21, C31, C40, C46, C60).
* Refinement of the heap to `Tree/Spec`, one simulation lemma per operation (C09-C12, C14-C16, C22-C26).
* Weakest preconditions over programs: `wp` for results, `Wpm` with an invariant that holds after every call (C27-C30, C33-C35, C41-C45,
  C54-C59, C61, C62, C69, C70, C85, C86).
* Invariants over all interleavings of any number of processes (C32, C35, C36, C43, C51, C52). For C71-C74 (`World/Whole`,
  `World/WholeInv`, and for C60 and C77 `World/PoolMnt`, `World/OwnInv`, `World/Settle`): each program only saves trees that extend what it has read by layers it has made (a trace property), and one growing
  parent table fits every tree, record and mount, on disk or in flight.
* Commuting calls (C79; `World/Local`, `World/Together`, `World/Within`): each program only calls within a zone of the disk that its own
  workspace and the IDs that it draws mark out; a call within one zone gives the same answer and effect whatever the calls in other zones did.
* Equivalence of the parser with inductively defined rules of what is written (`Written`) and what is asked for (`Asks`, C80); the values of options are specified by their spelling (`Spelt`, `SpeltInt`, `Truth`), not by the functions that read them; these and `Done`
  (C81) are descriptions that use no function of the model of the parser.
* An invariant over histories of successful commands (C83); C82 has the failures that break it.
* A forward simulation of all histories by a machine that has no disk, mounts, layers or JSON (C91; `Props/GitSpec`, `Props/Git`). What is
  said about histories (committed files come back, nobody else is disturbed) is then proved about the machine.
* Work that was not committed (C92; `Props/Aside`). A checkout leaves the old working layer behind: `C92_layer_stays` follows it through all
  concurrent executions, `C92_set_aside` and `C92_restart` bring its files back by its ID. `C92_violated_checkout`: the checkout itself does
  not ask, and nothing that has a name refers to the layer.
* Counting (C93; `Props/Cost`). `Weighs` bounds the calls of one kind in all runs of a program; the bound for all concurrent executions keeps a
  budget for each running command.
* Moved links (C94; `Props/Elsewhere`). A link that is absolute means the same from every path.
* Nodes by themselves (C95; `Props/Node`). What a node shows is told from the list of calls alone.
* Adding nodes with children (C96; `Props/Subtree`). An invariant of the loop that fills the index, and a set that it never leaves if there is a cycle.
* Which names crash the program (C05, C14, C26, C57; `Props/UidPanic`, `Props/Crash`). The set is described byte by byte. Statements about commands that
  succeed need no condition on names: a command with such a name does not succeed and has changed nothing (`World/Reads`).
* What readers of files do not look at (C97, C98; `Json/Grammar`, `Props/Lenient`). The grammar of RFC 8259 is written down as a relation between values and texts, and the parser is shown sound and complete for it. `Json/Spell` writes down UTF-8 (RFC 3629) and what a string says, again as relations that know nothing of the reader, and shows that `unquote` agrees. Reading a field changes one part of a structure, and parts commute.
* Shared maps (C99). `Verif/Misc/AliasTree.lean` runs the methods of the tree on a memory in which maps and slices are references
  (`Verif/Misc/Alias.lean`). `Verif/Props/Shared.lean` shows that no map is ever in two places, and from this that each method does to what
  a user sees just what the model with values (`Verif/Tree/Model.lean`) does. So the value model, on which all other claims rest, loses
  nothing by leaving references out, for callers who pass a map to one setter only (`C99_shared_map` shows why this is needed).
* Text forms of IDs as numbers (C100; `Props/Numerals`). Positional notation and two lists of digits are the whole specification.
* Layout of the files (C101; `Props/Layout`). `FileIs` and `RecordIs` say which JSON value a file holds, in terms of members, positional notation and the tree; base64 is specified as positional notation with padding (`In64`).
* Listings beside other commands (C103; `World/Beside`, `Props/Moment`, `Props/MomentMixed`). Every command writes in phases: first the history,
  then records, then the user's paths, then it removes records (`Ph`, `command_ph`); a listing reads in the opposite order. So the three files it
  reads were there together at a moment (`ticks_ok`, `learns_ticks`). Two commands one after the other break the phases (`C103_violated`).
* The working directory of the process (C104; `World/Cwd`, `Props/Cwd`, `Props/CwdLost`). In the other modules asking for the working directory,
  leaving it and coming back just succeed. `C104_*` show that this leaves nothing out for a process that knows its directory by `PWD`
  (for `clone`, `init`, `branch` and `tag`: for every process); `C104_violated_commit` and `C104_violated_checkout` show what happens to one that does not or that knows it by its mount point. Links with relative texts are not modelled; directories below the top of a mount are those of C106.
* Directories below the top of a mount (C106; `World/Below`, `Props/Below`). `ExecBelow` are the runs in which stat, remove, symlink and lchown do to what a mount shows what they do
  everywhere. There every change of the working directory succeeds, as it does for a process whose `PWD` is lost; one whose `PWD` is the real path of the directory cannot go back in the end, and reports an error after the same effects.
* A workspace inside another workspace (C107; `World/Inner`, `Props/InnerSim`, `Props/Inner`, `Props/InnerEdit`, `Props/InnerClone`, `Props/InnerInit`). `ExecVia` are the runs without faults in which one path `p` leads through the link of a workspace to a place in its mount: the calls on `p`
  (stat, readlink, remove, symlink, lchown) see what the mount shows there and change the upper layer of that mount so that the mount then shows what the call left, and nothing else in the mount changes. The theorems hold for
  every such change of the layer (a whiteout or no entry, as the kernel likes). `lk` says which file contents are symbolic links and with which text; it is any function. All other calls are those of `Step`. `Props/InnerSim` shows that each such run is the run on a disk on
  which `p` is a path of its own, up to the upper layer of the outer mount. That `p` is inside only one workspace at a time, and that the outer one stays mounted while the command runs, is assumed; that such runs exist is proved for workspaces at the top of the outer one (`C107_runs`, `C107_edit_runs`, `C107_clone_runs`, `C107_clone_from_runs`, `C107_init_runs`). `init` at a link inside a workspace is covered unless the link leads to a mount over the writable layer of that workspace (`FarLink`); not covered is a clone from inside a workspace to another path inside one.
* Two data directories (C108; `Props/TwoRoots`). They are two disks with the same paths of the user; each command runs on one of them and the other sees only how the paths of the user changed. What stat says of a link that leads to no mount of the command's
  own data directory is left open in the model (`Exists`, `EmptyDir`), so `C108_violated_lost` shows a run in which it says what it does if the other workspace is mounted (and, for `init`, shows no files). A data directory whose mounts are inside those of the other is not covered.
* A data directory that is moved (C109; `Props/Moved`). `Disk.moved` is the same disk with nothing mounted and any paths of the user, `Env.at` the same machine with another data root. What the invariant `Steady` says does not mention
  the root, so it holds of the moved directory and of all that follows. `Reachable` does not carry over, since a directory made under the new path could have been unable to mount what is there; the theorems of C109 start from `Steady`.
* A backup that is restored (C110; `Props/Restored`) is `Disk.moved` with the old root: the data directory of the earlier time, nothing mounted, and the paths of the user of the later time. A copy that is made while commands run is covered if it is of one moment (`C110_snapshot`), except between the removal of an old mount and that of its record; a copy made file by file meanwhile is not covered.
* Owners of links (C111; `Props/LinkOwner`) are recorded beside the disk, call by call (`LinkOwners.after`): `symlink` makes a link of root, `lchown` gives it to `E.owner`. Two paths are two links, also if they lead to one directory.
* How often a workspace can be committed to (C112; `Props/Limit`): induction over the commits that succeeded (`CommitsIn`), and over attempts that fail (`TriesIn`). The limit is that of C39.
* Repeating a command that was cut short (C113; `Props/Again`, `Props/AgainNew`, `Props/AgainEdit`, `Props/AgainDelete`): the cases of C85 and C86 for what a kill leaves, each followed by a whole run (C27, C28, C34, C55, C61, C62); C77 gives that the histories are the ones the theorems about whole runs speak of.
* The same branch or tag command twice (C114; `Props/Twice`): where a name has been set to what a reference means, the reference still means that (`resolves_setTag`, `resolves_setBranch`). Taking a change back (C115; `Props/Undo`): the second change is one that C24 accepts, and its effect on the history undoes the first. There and back (C116; `Props/RoundTrip`): the second checkout starts from the history of the first with one more layer, in which every key but HEAD means what it meant.
* The order of two changes (C117; `Props/EitherOrder`): what a change does depends on the name it sets and those its reference can mean (`edits_slots`), so it does not see an unrelated one; `Unrelated` says which those are, by the names alone.
* A new branch (C118; `Props/NewBranch`): C24 and C59 for the branch, C61 and C116 for the checkout, C27 and C28 for the commit; in between, that the new name means the new branch.
* Names and commits (C119; `Props/NamesAndWork`): by C28 a commit is accepted by what the branch of the workspace means; a change sets one name (`asked_rest`), and the branches of different workspaces have different names.
* Handing over (C120; `Props/HandOver`): one change of a name is `asked_step`, after it the other workspace of the space loads the same history and the new tag means the commit there; whether the checkout is accepted is C61, where it leads C116, and that the files are those from before the commit C33.
* Back to the start (C121; `Props/Start`): after `init` the first layer is empty and no working layer (`start_empty`); by `Grew` it then never changes, by C31 it stays in the history, and by C61 and C116 a checkout of it succeeds and shows that one layer.
* The same commit everywhere (C122; `Props/SameCommit`): C116 says what each of the two checkouts shows (and C34 what a clone shows), C31 that the path of the commit is the same, and `Grew` that the layers on it are.
* Goroutines that share a tree (C102; `Misc/Linear`, `Props/Linear`). Each method is a list of memory accesses between taking and releasing its
  locks. `two_phase` shows in general that calls which access only what their locks guard appear to happen at one moment; `body_does` shows that
  the accesses of each method, uninterrupted, are the method of `Tree/Model`. So treating each method as one step, as `Tree/Model` and
  `Misc/Race` do, leaves nothing out.
* Goroutines that share nodes (C105; `Misc/NodeLock`, `Props/NodeLock`). `Annotations` and `Data` look at their map before they take its lock, so
  `two_phase` does not apply; `Inv` says what the maps are once every call that is inside its lock has finished. `Means` says what a call does
  alone, and `C105_alone` that this is the function of `Tree/Model`.
  `Misc/Parents` and `Props/Parents` do the same for `Parent` and `SetParent`, which have no lock and read and write two words; they are apart because no lock and no map is shared with the others.
* Witnesses for what is false.

## 5. Trusted base

* Lean's kernel, version 4.33.0. No axioms of our own; no `sorry`, `native_decide` or `bv_decide`. AXIOMS.md lists the axioms of each theorem:
  at most `propext`, `Classical.choice` and `Quot.sound`.
* No part of Mathlib is imported.
* The reading of the Go code of /repo, which is by hand, and of what section 2 lists.

## 6. Where code and properties disagree

Found while proving; each has a theorem.

Identifiers and names
* Base32 decoding panics on some 26-byte texts with a line feed, carriage return or 0xFF byte, listed by `C05_violated_exactly` (C05). A user meets this as a panic in `checkout`, `log`,
  `branch` and `tag` with such a reference (C14, C57) and below `mounts` (C44).
* A digest shorter than 16 bytes panics (C06).
* Fields of `tree.json` that the program does not know are dropped by the next save (C97).
* `AddNode` of a node below itself never returns, and of a second node with the same ID leaves index and children in disagreement (C96).
* Branch names with a line feed are accepted but never listed, logged or parsed back (C20, C21, C63). Tags with a line feed show as several (C69).
* Names, messages and dates that are not valid UTF-8 change, vanish or merge when saved (C17, C50).

Trees
* `AddNode` with an ID that is already used, and `Load` of a dump with a repeated ID, break the tree (C08, C16).
* Chains of more than 5000 layers save but never load again (C19); long before that the mount options exceed one page: from 66 lower layers at the
  default data directory (C39). The mount fails after tree and record were saved.
* Commas, colons and backslashes in the data directory change the meaning of the mount options (C38).

Commands
* A clone of a workspace that is on a branch cannot commit: the branch is recorded but not created (C29).
* Checking out a branch by its full name leaves a workspace whose commits are refused (C30).
* Checking out another workspace's working layer by its ID makes that layer a lower layer; later writes show through (C35).
* A busy unmount is only logged; the removal of the mount directory then deletes the just committed files through the overlay (C32). README says
  that `commit` and `checkout` cannot switch the mount while a shell is in the workspace. What happens is that every such `commit` deletes the
  files that it has just put into the history, and every such `checkout` the files that were not committed (C88).
* IDs repeat: processes that start a multiple of 2.147483647 s apart draw the same ones. The later command is refused without harm, since
  directories are made with `os.Mkdir` (C89).
* After a restart nothing mounts the workspace again; files written into the empty directory are deleted by the next commit (C58).
* A commit that is killed after saving the tree and before saving the record is in the history, but the workspace goes on writing into it (C32).
* Every commit and checkout removes the link before it makes the new one; killed in between, the workspace is gone from its path (C85).
* Overlapping commits in one space: one is lost and its workspace can no longer be opened (C43).
* Two `tag` or `branch` commands that open the tree file at the same moment: both succeed, and the file is a mixture that nothing reads (C43).
* A crash between truncating and writing `tree.json` loses the whole space (C41). No command repairs or overwrites such a file (C78).
* `clone` replaces a regular file at the target (C45). A non-empty directory at the target, or a missing directory above, is refused only after
  space and record were saved; the same for `init` below a missing directory, and for both on a link to a mount that is gone (C82).
* `clone` onto a mounted workspace, and `init` onto one that shows no files, replace its link: no path leads to it any more (C87).
* `clone` with another `--data-root` onto a workspace, and `init` onto one that shows no files, replace its link in the same way (C108).
* After the data directory is moved every workspace is a broken link, and no command makes it again (C109).
* After an older copy of the data directory is restored, every workspace that has committed or checked out since is a broken link (C110).
* A command that is killed between making the link of a workspace and giving it to the user leaves a link of root (C111).
* A workspace is full after a number of commits that depends on the path of the data directory; with the default one, a new workspace is full after 64 (C112). Every further commit there fails, for ever, but each attempt is recorded in the history as if it had succeeded, the workspace goes on writing into it, and nobody can ever check it out.
* A commit that was killed at the wrong moment cannot be repeated, since nothing is at the path (C113, C85). Killed after the history has been saved, it can, but then a layer stays in the history that nobody uses.
* `tag -d` or `branch -d` with several names that was killed after the first cannot be repeated: the first name is not there, the command is refused, and the other names stay (C113).
* `branch -f` moves the branch that the workspace is on without a warning, also to a place from which every commit is refused (C119). `branch -f NAME HEAD` repairs that, and also the clone that is on a branch that does not exist (C29).
* A checkout in a workspace that has another workspace inside makes that one's path disappear or, with an older commit, a broken link (C107).
* In a process whose `PWD` is not set or is the mount point, commit and checkout always fail in the end; the commit is recorded, and the workspace goes on writing into it (C104). In a directory below
  the top, known by its real path, the same; if the directory is empty, commit succeeds, puts a link in its place into the commit, and the workspace is at no path any more (C106).
* A listing that a commit and then a new tag overtake shows a workspace that was never there (C103).
* A commit that is refused since the branch cannot follow leaves a layer and a mount directory that nothing uses (C82).
* If looking at the path fails, `init` takes a file for a free path and `Expand` deletes it (C45).
* Permissions and owner of the top directory are lost with every commit and checkout: a workspace closed with `chmod 700` is readable for all
  afterwards, and it belongs to whoever committed (C76).
* `tag -d ROOT` and `tag -f ROOT` are accepted (C46).
* `log` panics on nodes without a date, since `c.Date != nil` compares a method (C49): `log` of a working layer by ID, and plain `log` after a checkout of one.
* `layers.List` panics on a directory name with a line feed and reports IDs for names that are not canonical; a failed `Create` leaves half a
  layer (C40).

Process
* A second interrupt is normally swallowed, and no command looks at its context (C48).
* An interrupted command of a user who is not root exits with 1 while the process that does the work goes on, or is killed in the middle of a
  commit: `exec.CommandContext` kills `sudo` (C84).
* `Prepare` after a failed `Prepare` returns nil without doing anything (C47); two first `Prepare`s at once may fail (C47).
* `Search` for a name that moves from branch to tag finds nothing, though it names a node at every moment (C102); `Annotations` beside `SetAnnotations(nil)` may return an empty map for nil (C105); `Parent` of a
  node that `AddNode` is adding may return a value that is neither nil nor a node (C105).
* A dump taken while the tree changes loads but is no snapshot (C52). `SetAnnotations`, `SetData` and `Load` keep the caller's maps (C53).

Command line
* A user's command line with `--`: the added `--uid` and `--gid` count as arguments (C64).
* `branch --show-current` prints an empty line when detached, where its help says nothing is printed (C65).
* `commit -m a -m b` keeps `b` only, where its help says both are kept as paragraphs (C66).
* `branch a b c` ignores `c` (C80).

## 7. Testing the theorems

`tools/mutate.py` edits one definition of the model in a scratch copy, rebuilds, replaces proofs that fail by `sorry` level by level, and then asks Lean
which theorems of MANIFEST.json depend on `sorryAx`. A claim that the edit makes false must be among them. `seeded/LOG.jsonl` has one line per attempt.

What the log shows, and what it does not: `theorems_failed` and `other_claims` count a theorem whose proof uses a lemma that the edit broke. That is less than
a refutation. The theorem might still hold of the edited model with another proof, and an edit of a central definition takes most claims along in this way, whether
it makes them false or not. `proofs_failed` names the proofs that failed themselves. The safe direction is the other one: a theorem under `survived` was proved as it stands of the edited model.
Edits after which the definitions themselves no longer compile are not in the log, as they test nothing.

Other tools: `gen_properties.py` writes properties.jsonl, `setstatus.py` and `gen_manifest.py` write MANIFEST.json, `gen_axioms.py` writes AXIOMS.md.
