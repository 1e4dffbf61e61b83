import Verif.Props.Acceptance
import Verif.Props.Accepted
import Verif.Props.Added
import Verif.Props.Afterwards
import Verif.Props.Analyzer
import Verif.Props.AnalyzerConfig
import Verif.Props.BuildDir
import Verif.Props.BuildScript
import Verif.Props.Builder
import Verif.Props.CharDef
import Verif.Props.CharFilter
import Verif.Props.Cli
import Verif.Props.Compiled
import Verif.Props.Config
import Verif.Props.CrateBuild
import Verif.Props.Csv
import Verif.Props.Determined
import Verif.Props.EndToEnd
import Verif.Props.Ends
import Verif.Props.Exact
import Verif.Props.Excess
import Verif.Props.FilterOrder
import Verif.Props.FilterSlice
import Verif.Props.Filtering
import Verif.Props.Homographs
import Verif.Props.InOrder
import Verif.Props.Inert
import Verif.Props.JsonText
import Verif.Props.Language
import Verif.Props.Lattice
import Verif.Props.Locality
import Verif.Props.Long
import Verif.Props.Matrix
import Verif.Props.Modes
import Verif.Props.ModesExact
import Verif.Props.NumberLimits
import Verif.Props.OffsetsExact
import Verif.Props.Panics
import Verif.Props.Parts
import Verif.Props.Renamed
import Verif.Props.Reordered
import Verif.Props.Reported
import Verif.Props.Repriced
import Verif.Props.Reproducible
import Verif.Props.Returns
import Verif.Props.Rows
import Verif.Props.Sample
import Verif.Props.Scaled
import Verif.Props.Schedule
import Verif.Props.ScheduleFaults
import Verif.Props.Sequence
import Verif.Props.Size
import Verif.Props.Storage
import Verif.Props.Text
import Verif.Props.TokenFilter
import Verif.Props.Tokenize
import Verif.Props.Unique
import Verif.Props.UserDict
import Verif.Props.Words
import Verif.Audit
