import Verif.Cli.Find
import Verif.Ws.Time
import Verif.World.Pool
/-!
# From the command line to the commands

pkg/commands/*.go, pkg/commands/options/*.go, pkg/utils/cmd/*.go and pkg/utils/sudo/sudo.go.
-/
set_option autoImplicit false
namespace Verif
namespace Cli

/-- `Args` of the subcommands: how many arguments are accepted (pkg/commands/init.go:25, pkg/commands/clone.go:24, pkg/commands/commit.go:24, pkg/commands/checkout.go:23, pkg/commands/log.go:23;
pkg/commands/branch.go:17-25 and pkg/commands/tag.go:17-25 have none, so any number). -/
def Sub.argsOk : Sub → Nat → Bool
  | .init, n => n ≤ 1
  | .clone, n => 1 ≤ n && n ≤ 2
  | .commit, n => n = 0
  | .checkout, n => n = 1
  | .branch, _ => true
  | .tag, _ => true
  | .log, n => n ≤ 1

/-- `AnnotationRunAsRoot` (pkg/commands/init.go:21-24, pkg/commands/clone.go:20-23, pkg/commands/commit.go:20-23, pkg/commands/checkout.go:19-22, pkg/commands/branch.go:21-24, pkg/commands/tag.go:21-24; not in pkg/commands/log.go:20-22). -/
def Sub.asRoot : Sub → Bool
  | .log => false
  | _ => true

/-- A command line that is accepted. -/
structure Line where
  sub : Sub
  parsed : Parsed
  deriving DecidableEq, Repr

/-- Why nothing is run. -/
inductive Refusal where
  /-- No subcommand of /repo. -/
  | noCommand
  | flags (e : ParseErr)
  /-- The help text is shown. -/
  | help
  /-- Too many or too few arguments. -/
  | args
  /-- pkg/commands/options/global.go:35-40. -/
  | verbosity
  deriving DecidableEq, Repr

/-- `Command.ExecuteC` and the beginning of `Command.execute` (cobra, see `find`): find the subcommand, parse its flags, look at `--help`, check the number
of arguments. -/
def line (args : List Str) : Except Refusal Line :=
  match find args with
  | none => .error .noCommand
  | some (c, a) =>
    match parse c.flags a with
    | .error e => .error (.flags e)
    | .ok p =>
      if p.flag (lit "help") then .error .help
      else if c.argsOk p.args.length then .ok ⟨c, p⟩
      else .error .args

/-- `GlobalOptions` (pkg/commands/options/global.go:21-32) with their defaults (pkg/commands/options/global.go:10-18). -/
structure Global where
  verbosity : Nat
  chdir : Str
  dataRoot : Str
  uid : Int
  gid : Int
  deriving DecidableEq, Repr

/-- The global options of a line: the last value given, else the default (pkg/commands/options/global.go:10-18). -/
def Line.global (l : Line) : Global where
  verbosity := ((l.parsed.last (lit "verbose")).bind (parseUint 32)).getD 0
  chdir := (l.parsed.last (lit "chdir")).getD []
  dataRoot := (l.parsed.last (lit "data-root")).getD (lit "/var/lib/stackcrisp")
  uid := ((l.parsed.last (lit "uid")).bind parseInt).getD (-1)
  gid := ((l.parsed.last (lit "gid")).bind parseInt).getD (-1)

/-- Which branches are listed (pkg/commands/branch.go:75-82). -/
inductive Listing where
  | here | remotes | all
  deriving DecidableEq, Repr

/-- What a command line asks for. Paths are as they were given. -/
inductive Order where
  | init (path branch : Str)
  | clone (source target : Str)
  | commit (message : Str)
  | checkout (key : Str)
  | listBranches (which : Listing)
  | showCurrent
  | deleteBranches (names : List Str) (remotes : Bool)
  | addBranch (name ref : Str) (force : Bool)
  | listTags
  | deleteTags (names : List Str)
  | addTag (name ref : Str) (force : Bool)
  | log (ref : Str)
  deriving DecidableEq, Repr

/-- The beginning of each `RunE` (pkg/commands/init.go:30-33, pkg/commands/clone.go:29-33, pkg/commands/commit.go:39, pkg/commands/checkout.go:28, pkg/commands/branch.go:39-58 with :75-82 and :92-96, pkg/commands/tag.go:37-51 with :87-91,
pkg/commands/log.go:28-31). -/
def Line.order (l : Line) : Order :=
  let a := l.parsed.args
  let on := fun n => l.parsed.flag n
  match l.sub with
  | .init => .init (a.headD (lit ".")) ((l.parsed.last (lit "initial-branch")).getD (lit "main"))
  | .clone => .clone (a.headD []) ((a.drop 1).headD (lit "."))
  | .commit => .commit ((l.parsed.last (lit "message")).getD [])
  | .checkout => .checkout (a.headD [])
  | .branch =>
    let which := if on (lit "remotes") then Listing.remotes else if on (lit "all") then .all else .here
    if on (lit "list") then .listBranches which
    else if on (lit "show-current") then .showCurrent
    else if on (lit "delete") then .deleteBranches a (on (lit "remotes"))
    else match a with
      | [] => .listBranches which
      | name :: r => .addBranch name (r.headD (lit "HEAD")) (on (lit "force"))
  | .tag =>
    if on (lit "list") then .listTags
    else if on (lit "delete") then .deleteTags a
    else match a with
      | [] => .listTags
      | name :: r => .addTag name (r.headD (lit "HEAD")) (on (lit "force"))
  | .log => .log (a.headD (lit "HEAD"))

/-- What a process does: the data directory and the owner of new files, as `manager.New` gets them (pkg/utils/cmd/cmd_util.go:114-118, pkg/manager/manager_default.go:33-45: the directory is
made absolute), the working directory after `-C` (pkg/utils/cmd/cmd_util.go:78-102; the directory is taken to exist), and the order. -/
structure Job where
  root : Str
  uid : Int
  gid : Int
  cwd : Str
  order : Order
  deriving DecidableEq, Repr

/-- `ChangeWorkingDirectory` (pkg/utils/cmd/cmd_util.go:78-102). -/
def goTo (cwd dir : Str) : Str := if dir = [] then cwd else Path.abs cwd dir

/-- The manager and the working directory that `RunE` finds (pkg/utils/cmd/cmd_util.go:78-118, pkg/manager/manager_default.go:33-45). -/
def Line.job (l : Line) (cwd : Str) : Job where
  root := Path.abs (goTo cwd l.global.chdir) l.global.dataRoot
  uid := l.global.uid
  gid := l.global.gid
  cwd := goTo cwd l.global.chdir
  order := l.order

/-- `sudoExtraArgs` (pkg/utils/cmd/cmd_util.go:68-75). -/
def extraArgs (uid gid : Nat) : List Str := [lit "--uid", Time.dec uid, lit "--gid", Time.dec gid]

/-- `PersistentPreRunE` and what follows in a process that runs as root (pkg/commands/stackcrisp.go:26-48). -/
def asRoot (cwd : Str) (args : List Str) : Except Refusal Job :=
  match line args with
  | .error e => .error e
  | .ok l => if 2 < l.global.verbosity then .error .verbosity else .ok (l.job cwd)

/-- The same for a user: the program runs itself again under `sudo` (pkg/utils/cmd/cmd_util.go:44-65, pkg/utils/sudo/sudo.go:17-24), before `-C` is looked at. That `sudo` runs the program as root
in the same directory is assumed. -/
def asUser (uid gid : Nat) (cwd : Str) (args : List Str) : Except Refusal Job :=
  match line args with
  | .error e => .error e
  | .ok l =>
    if 2 < l.global.verbosity then .error .verbosity
    else if l.sub.asRoot = true ∧ uid ≠ 0 then asRoot cwd (args ++ extraArgs uid gid)
    else .ok (l.job cwd)

/-- The calls that an order makes: the rest of each `RunE` (pkg/commands/init.go:34-60, pkg/commands/clone.go:34-63, pkg/commands/commit.go:29-56, pkg/commands/checkout.go:31-57, pkg/commands/branch.go:31-37, pkg/commands/tag.go:29-35, pkg/commands/log.go:35-41).
`date` is the date that `NewCommitInfo` takes (pkg/workspaces/commit.go:10-16). -/
def Order.command (cwd date : Str) : Order → Command
  | .init path branch => .init (Path.abs cwd path) branch
  | .clone source target => .clone cwd source (Path.abs cwd target)
  | .commit message => .commit cwd ⟨date, message⟩
  | .checkout key => .checkout cwd key
  | .deleteBranches names remotes => .edit cwd (names.map fun n => .deleteBranch n remotes)
  | .addBranch name ref force => .edit cwd [.addBranch name ref force]
  | .deleteTags names => .edit cwd (names.map .deleteTag)
  | .addTag name ref force => .edit cwd [.addTag name ref force]
  | _ => .look cwd

/-- `fmt.Println` of each name. -/
def printLines (names : List Str) : Str := (names.map (· ++ [10])).flatten

/-- What listings print (pkg/commands/branch.go:40-47, :70-87, pkg/commands/tag.go:62-69). -/
def Shows (w : OpenWs) : Order → Str → Prop
  | .listBranches .here, out => ∃ bs, Ws.LocalBranches w.tree w.ws bs ∧ out = printLines (bs.map fun b => b.info.localName)
  | .listBranches .all, out => ∃ bs, Ws.AllBranches w.tree w.ws bs ∧ out = printLines (bs.map fun b => b.info.localName)
  | .listBranches .remotes, out => ∃ bs, Ws.RemoteBranches w.tree bs ∧ out = printLines (bs.map fun b => b.info.localName)
  | .showCurrent, out => out = printLines [(BranchInfo.mk (some w.ws.id) w.ws.branch).localName]
  | .listTags, out => ∃ ts, Ws.Tags w.tree ts ∧ out = printLines ts
  | _, _ => False

end Cli
end Verif
