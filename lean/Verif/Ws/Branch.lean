import Verif.Props.Uid
/-!
# `pkg/workspaces/branch.go`: branch names
-/
set_option autoImplicit false
namespace Verif

/-- `defaultBranch` without its head (pkg/workspaces/branch.go:72-77): a name and the owning workspace, nil for a global branch (`NewLocalBranch` and
`NewGlobalBranch`, pkg/workspaces/branch.go:57-69). -/
structure BranchInfo where
  ws : Option UID
  name : Str
  deriving DecidableEq, Repr

namespace BranchInfo

/-- `defaultBranch.FullName` (pkg/workspaces/branch.go:88-93). -/
def fullName (b : BranchInfo) : Str :=
  match b.ws with
  | some w => w.base32 ++ lit "/" ++ b.name
  | none => lit "global/" ++ b.name

/-- `defaultBranch.LocalName` (pkg/workspaces/branch.go:96-101). -/
def localName (b : BranchInfo) : Str :=
  match b.ws with
  | some _ => b.name
  | none => lit "origin/" ++ b.name

/-- `IsGlobal` (pkg/workspaces/branch.go:104-106). -/
def isGlobal (b : BranchInfo) : Bool := b.ws.isNone
/-- `IsLocal` (pkg/workspaces/branch.go:109-111). -/
def isLocal (b : BranchInfo) : Bool := b.ws.isSome

/-- Errors of `ParseBranchFullName`. -/
inductive ParseErr where
  /-- `invalid branch full name` (pkg/workspaces/branch.go:25). -/
  | noMatch
  /-- `parse the workspace ID` (pkg/workspaces/branch.go:36). -/
  | workspaceID (e : UID.DecErr)
  deriving DecidableEq, Repr

/-- The character class `[A-Z0-9]` of the regular expression (pkg/workspaces/branch.go:18). -/
def isIDChar (c : UInt8) : Bool := (0x41 ≤ c && c ≤ 0x5A) || (0x30 ≤ c && c ≤ 0x39)

/-- `branchFullNameRegexp.FindStringSubmatch` (pkg/workspaces/branch.go:18, :23) for `^(global|[A-Z0-9]{26})/(.*)$`: the two groups. In Go
`.` matches everything but a line feed, also a byte that is not valid UTF-8, and `$` matches only at the end of the text.
The two alternatives cannot both match since `g` is not in the class. -/
def regexMatch (s : Str) : Option (Str × Str) :=
  if s.take 7 = lit "global/" then
    if (10 : UInt8) ∈ s.drop 7 then none else some (lit "global", s.drop 7)
  else if 27 ≤ s.length ∧ (s.take 26).all isIDChar = true ∧ s[26]? = some 0x2F ∧ (10 : UInt8) ∉ s.drop 27 then
    some (s.take 26, s.drop 27)
  else none

/-- `ParseBranchFullName` (pkg/workspaces/branch.go:22-40). -/
def parseFullName (s : Str) : Res ParseErr BranchInfo :=
  match regexMatch s with
  | none => .err .noMatch
  | some (p, name) =>
    if p = lit "global" then .ok ⟨none, name⟩
    else match UID.decodeBase32 p with
      | .ok w => .ok ⟨some w, name⟩
      | .err e => .err (.workspaceID e)
      | .panic => .panic
      | .diverge => .diverge

/-- `ParseBranchLocalName` (pkg/workspaces/branch.go:45-54): the candidates in order. -/
def parseLocalName (w : UID) (s : Str) : List BranchInfo :=
  ⟨some w, s⟩ :: (if s.take 7 = lit "origin/" then [⟨none, s.drop 7⟩] else [])

end BranchInfo
end Verif
