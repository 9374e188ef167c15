import Verif.Cli.Flags
/-!
# Finding the subcommand

`github.com/spf13/cobra` v1.8.0 (see go.mod:9), which is not in /repo: `Command.Find`, `stripFlags`, `argsMinusFirstX`. Written from
knowledge of that version. The subcommands and their flags are those of /repo.
-/
set_option autoImplicit false
namespace Verif
namespace Cli

/-- The subcommands (pkg/commands/stackcrisp.go:65-73). -/
inductive Sub where
  | init | clone | commit | checkout | branch | tag | log
  deriving DecidableEq, Repr

/-- The name of a subcommand (the first word of `Use`). -/
def Sub.name : Sub → Str
  | .init => lit "init"
  | .clone => lit "clone"
  | .commit => lit "commit"
  | .checkout => lit "checkout"
  | .branch => lit "branch"
  | .tag => lit "tag"
  | .log => lit "log"

/-- All subcommands, in the order of `AddCommand` (pkg/commands/stackcrisp.go:65-73). -/
def Sub.all : List Sub := [.init, .clone, .commit, .checkout, .branch, .tag, .log]

/-- The global flags (pkg/commands/options/global.go:43-50). -/
def globalFlags : List Flag :=
  [⟨lit "verbose", 118, .uint32⟩, ⟨lit "chdir", 67, .str⟩, ⟨lit "data-root", 0, .str⟩, ⟨lit "uid", 0, .int⟩, ⟨lit "gid", 0, .int⟩]

/-- The flag that cobra gives to every command when it is executed. -/
def helpFlag : Flag := ⟨lit "help", 104, .bool⟩

/-- The flags of each subcommand (pkg/commands/options/init.go:19-25, pkg/commands/options/commit.go:19-25, pkg/commands/options/branch.go:33-46, pkg/commands/options/tag.go:25-32). -/
def Sub.ownFlags : Sub → List Flag
  | .init => [⟨lit "initial-branch", 98, .str⟩]
  | .commit => [⟨lit "message", 109, .str⟩]
  | .branch => [⟨lit "list", 108, .bool⟩, ⟨lit "show-current", 0, .bool⟩, ⟨lit "delete", 100, .bool⟩, ⟨lit "remotes", 114, .bool⟩,
      ⟨lit "all", 97, .bool⟩, ⟨lit "force", 102, .bool⟩]
  | .tag => [⟨lit "list", 108, .bool⟩, ⟨lit "delete", 100, .bool⟩, ⟨lit "force", 102, .bool⟩]
  | .clone => []
  | .checkout => []
  | .log => []

/-- All flags that a subcommand knows. -/
def Sub.flags (c : Sub) : List Flag := c.ownFlags ++ globalFlags ++ [helpFlag]

/-- The test that `stripFlags` and `argsMinusFirstX` make: an argument that looks like a flag whose value is the next argument. -/
def takesNext (fs : List Flag) (s : Str) : Bool :=
  match s with
  | 45 :: 45 :: name => !s.contains 61 && !(fs.any fun f => f.name = name ∧ f.kind = .bool)
  | [45, c] => c ≠ 61 && !(fs.any fun f => f.short ≠ 0 ∧ f.short = c ∧ f.kind = .bool)
  | _ => false

/-- `stripFlags`: the words. `skip`: the next argument is the value of a flag. A flag with at most one argument behind it ends the loop. -/
def stripFlags (fs : List Flag) : (skip : Bool) → List Str → List Str
  | _, [] => []
  | true, _ :: rest => stripFlags fs false rest
  | false, s :: rest =>
    if s = lit "--" then []
    else if takesNext fs s then (if rest.length ≤ 1 then [] else stripFlags fs true rest)
    else if s ≠ [] ∧ s.head? ≠ some 45 then s :: stripFlags fs false rest
    else stripFlags fs false rest

/-- `argsMinusFirstX`: the arguments without the first word `x`; `none` when it is not found. -/
def minusFirst (fs : List Flag) (x : Str) : (skip : Bool) → List Str → Option (List Str)
  | _, [] => none
  | true, s :: rest => (minusFirst fs x false rest).map (s :: ·)
  | false, s :: rest =>
    if s = lit "--" then none
    else if takesNext fs s then (minusFirst fs x true rest).map (s :: ·)
    else if s.head? ≠ some 45 ∧ s = x then some rest
    else (minusFirst fs x false rest).map (s :: ·)

/-- `Command.Find` on the root command: the subcommand and its arguments. `none` stands for everything else: no word, a word that is no
subcommand of /repo (cobra's own `help` and `completion` among them). The subcommands have no subcommands, so that the search ends there.
The help flag is not known yet. -/
def find (args : List Str) : Option (Sub × List Str) :=
  match stripFlags globalFlags false args with
  | [] => none
  | x :: _ =>
    match Sub.all.find? (fun c => c.name = x) with
    | none => none
    | some c => some (c, (minusFirst globalFlags x false args).getD args)

end Cli
end Verif
