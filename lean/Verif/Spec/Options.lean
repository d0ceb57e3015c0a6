import Verif.Spec.Source
/-! All places of a file descriptor where options stand. -/
namespace Verif.Spec

/-- An enum descriptor somewhere in a file. -/
inductive EnumIn (fd : FileDescriptorProto) : EnumDescriptorProto → Prop where
  | top {d} : d ∈ fd.enumType → EnumIn fd d
  | nested {m d} : MsgIn fd m → d ∈ m.enumType → EnumIn fd d

/-- `u` is an uninterpreted option somewhere in the file descriptor `fd`. -/
inductive OptionIn (fd : FileDescriptorProto) (u : UninterpretedOption) : Prop where
  | file {us} : fd.options = some us → u ∈ us → OptionIn fd u
  | message {d o} : MsgIn fd d → d.options = some o → u ∈ o.uninterpretedOption → OptionIn fd u
  | oneof {d o us} : MsgIn fd d → o ∈ d.oneofDecl → o.options = some us → u ∈ us → OptionIn fd u
  | extensionRange {d r us} : MsgIn fd d → r ∈ d.extensionRange → r.options = some us → u ∈ us → OptionIn fd u
  | field {x us} : FieldIn fd x → x.options = some us → u ∈ us → OptionIn fd u
  | enum {e us} : EnumIn fd e → e.options = some us → u ∈ us → OptionIn fd u
  | enumValue {e v us} : EnumIn fd e → v ∈ e.value → v.options = some us → u ∈ us → OptionIn fd u
  | service {s us} : s ∈ fd.service → s.options = some us → u ∈ us → OptionIn fd u
  | method {s m us} : s ∈ fd.service → m ∈ s.method → m.options = some us → u ∈ us → OptionIn fd u

/-- The significant tokens of a source, without their positions (lexical errors are dropped). -/
def tokensOf (src : Bytes) : List Token := (sigToks 0 src).filterMap fun x => x.map (·.1)

end Verif.Spec
