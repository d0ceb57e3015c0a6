import Verif.Basic
import Verif.Props.Path
import Verif.Props.Compiler
import Verif.Props.Compiler2
import Verif.Props.Compiler3
import Verif.Props.Resolver
import Verif.Props.Wire
import Verif.Props.Lines
import Verif.Props.Parse
import Verif.Props.Descriptor
import Verif.Props.Descriptor2
import Verif.Props.Descriptor3
import Verif.Props.Descriptor4
import Verif.Props.Locations
import Verif.Props.Lexing
import Verif.Props.Names
import Verif.Props.Grammar
import Verif.Props.Comments
import Verif.Props.Rules
import Verif.Props.Imports
import Verif.Props.Compile
import Verif.Props.Confined
import Verif.Props.Encode
import Verif.Props.Text
import Verif.Props.Once
import Verif.Props.Blame
import Verif.Props.Expected
import Verif.Props.Viable
import Verif.Props.Described
import Verif.Props.Order
import Verif.Props.Failing
import Verif.Props.Local
import Verif.Props.Shown
import Verif.Props.Concat
import Verif.Props.Repeats
import Verif.Props.Reads
import Verif.Props.Explains
import Verif.Props.Script
import Verif.Props.Endings
import Verif.Props.Advice
import Verif.Props.Nesting
import Verif.Props.Siblings
import Verif.Props.Spelling
