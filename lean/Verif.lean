import Verif.Props.Derive
import Verif.Props.Combinators
import Verif.Props.Containers
import Verif.Props.Offset
import Verif.Props.Literal
import Verif.Props.Grammar
import Verif.Props.Errors
import Verif.Props.Locations
import Verif.Props.Termination
import Verif.Props.Format
import Verif.Props.RoundTrip
import Verif.Props.Source
import Verif.Props.Furthest
import Verif.Props.Respell
import Verif.Props.Idempotent
import Verif.Props.Peg
import Verif.Props.Print
import Verif.Props.Layout
import Verif.Props.Convert
import Verif.Props.Build
import Verif.Props.Laws
import Verif.Props.Rename
import Verif.Props.Bounds
import Verif.Props.Equality
import Verif.Props.Work
import Verif.Props.Linear
import Verif.Props.Language
import Verif.Props.Readme
import Verif.Props.Edit
import Verif.Props.Quote
import Verif.Props.Precedence
import Verif.Props.Evolve
import Verif.Props.Refactor
import Verif.Props.Viable
import Verif.Props.Exact
import Verif.Props.Order
import Verif.Props.Relocate
import Verif.Props.Snippet
import Verif.Props.Compose
import Verif.Props.Repeat
import Verif.Props.Fault
import Verif.Props.Strings
import Verif.Props.Total
import Verif.Props.Numbers
import Verif.Props.Written
import Verif.Props.Lone
import Verif.Props.Inside
import Verif.Props.Docs
