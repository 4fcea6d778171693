import Verif.Props.Parse
import Verif.Props.Typed
import Verif.Props.Discipline
import Verif.Props.Ser
import Verif.Props.Float
import Verif.Props.Reparse
import Verif.Props.Drop
import Verif.Props.Derive
import Verif.Props.Space
import Verif.Props.Prefix
import Verif.Props.Equiv
import Verif.Props.NumCost
import Verif.Props.ViaValue
import Verif.Props.DeriveGen
import Verif.Props.Bound
import Verif.Props.Compose
import Verif.Props.Depth
import Verif.Props.Evolve
import Verif.Props.Cost
import Verif.Props.Kind
import Verif.Props.Fmt
import Verif.Props.Borrows
import Verif.Props.Viable
import Verif.Props.SerCost
import Verif.Props.UniqueNames
import Verif.Props.ValueApi
import Verif.Props.Client
import Verif.Props.Unwind
import Verif.Props.SerUnwind
import Verif.Props.PanicMem
import Verif.Props.Release
import Verif.Props.Generic
import Verif.Props.SerGeneric
import Verif.Props.Range
import Verif.Props.LexCost
import Verif.Props.Pretty
import Verif.Props.Normal
import Verif.Props.Conformance
import Verif.Props.Layout
import Verif.Props.Like
import Verif.Props.ShowsLike
import Verif.Props.SerTime
import Verif.Props.Exchange
import Verif.Props.Order
import Verif.Props.Convert
import Verif.Props.CallDepth
import Verif.Props.DropGlue
import Verif.Props.Causal
import Verif.Props.Steady
import Verif.Props.Expand
import Verif.Props.Threads
import Verif.Props.Code
import Verif.Props.CodeRun
import Verif.Props.BoxAlias
import Verif.Props.DriverBorrows
import Verif.Props.SerBorrows
import Verif.Props.SerThreads
import Verif.Props.BoxTree
import Verif.Props.DriverTree
