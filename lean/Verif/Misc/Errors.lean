import Verif.Ws.Time
import Verif.Uid
/-!
# `pkg/utils/errors`: errors with a reason
-/
set_option autoImplicit false
namespace Verif

/-- `defaultStatus` (pkg/utils/errors/error.go:26-30), the only implementation of `Status`. -/
structure Status where
  code : UInt32
  reason : Str
  message : Str
  deriving DecidableEq

/-- `Error` (pkg/utils/errors/error.go:35-40). -/
def Status.text (s : Status) : Str :=
  if s.code = 0 then s.reason ++ lit ": " ++ s.message
  else s.reason ++ lit "(" ++ Time.dec s.code.toNat ++ lit "): " ++ s.message

/-- `New` (pkg/utils/errors/error.go:67-72). -/
def Status.new (reason message : Str) : Status := ⟨0, reason, message⟩

/-- `NewWithCode` (pkg/utils/errors/error.go:75-81). -/
def Status.newWithCode (code : UInt32) (reason message : Str) : Status := ⟨code, reason, message⟩

/-- An error: one without anything inside, a `Status`, or one that `fmt.Errorf` makes with one `%w`. Errors with several inside
(`errors.Join`, several `%w`) do not occur in /repo. -/
inductive GoErr where
  | plain (text : Str)
  | status (s : Status)
  | wrap (text : Str) (inner : GoErr)

/-- The text of an error. -/
def GoErr.text : GoErr → Str
  | .plain t => t
  | .status s => s.text
  | .wrap t _ => t

/-- `fmt.Errorf("<text>: %w", err)`: the form of all wrapping in /repo. -/
def GoErr.within (text : Str) (e : GoErr) : GoErr := .wrap (text ++ lit ": " ++ e.text) e

/-- `errors.As(err, &status)` of the standard library: the first error of the chain that is a `Status`. -/
def GoErr.as : GoErr → Option Status
  | .plain _ => none
  | .status s => some s
  | .wrap _ e => e.as

/-- `FromError` (pkg/utils/errors/error.go:58-64); `none` is a nil error. `errors.As(nil, _)` is false. -/
def fromError : Option GoErr → Res Empty Status
  | none => .panic
  | some e =>
    match e.as with
    | some s => .ok s
    | none => .ok (Status.new (lit "InternalError") e.text)

/-- The error of `Get` and `Delete` for a layer that is not there (pkg/layers/manager.go:63, :106; pkg/layers/errors.go:5). `%q` puts the
string of an ID, which needs no escapes, into quotes. -/
def layerNotFound (id : UID) : GoErr :=
  .status (Status.new (lit "LayerNotFound") (lit "layer \"" ++ id.string ++ lit "\" not found"))

end Verif
