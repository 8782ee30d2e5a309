import Verif.Props.Bits
import Verif.Props.Ser
import Verif.Props.Huf
import Verif.Props.ZipDict
import Verif.Props.ZipBack
import Verif.Props.Codecs
import Verif.Props.AnyCodec
import Verif.Props.Approx
import Verif.Props.Parse
import Verif.Props.Kmeans
import Verif.Props.Clusterc
import Verif.Props.Prune
import Verif.Props.Hang
import Verif.Props.Bench
import Verif.Props.Main
import Verif.Props.Exact
import Verif.Props.Alpha
import Verif.Props.Trailing
import Verif.Props.Decode
import Verif.Props.Sizes
import Verif.Props.Again
import Verif.Proofs.Extreme
import Verif.Props.Extreme
import Verif.Spec.Ends
import Verif.Proofs.Ends
import Verif.Proofs.Shades
import Verif.Props.Ends
import Verif.Model.Run
import Verif.Spec.Run
import Verif.Proofs.Run
import Verif.Props.Run
import Verif.Spec.Quality
import Verif.Proofs.Quality
import Verif.Props.Quality
import Verif.Props.Huge
import Verif.Model.Depth
import Verif.Spec.Depth
import Verif.Proofs.Depth
import Verif.Props.Depth
import Verif.Model.Program
import Verif.Proofs.Program
import Verif.Props.Program
import Verif.Model.DictStats
import Verif.Spec.DictStats
import Verif.Proofs.DictStats
import Verif.Proofs.DictRun
import Verif.Props.DictStats
import Verif.Core.I32
import Verif.Model.KmeansCount
import Verif.Proofs.KmeansCount
import Verif.Props.KmeansCount
import Verif.Model.DictDrop
import Verif.Props.DictDrop
import Verif.Props.Expand
import Verif.Spec.Files
import Verif.Props.Files
import Verif.Props.Entropy
import Verif.Props.Reproduce
import Verif.Props.Checks
import Verif.Proofs.Symmetry
import Verif.Props.Symmetry
import Verif.Model.Makefile
import Verif.Props.Makefile
import Verif.Spec.WrongCodec
import Verif.Proofs.WrongCodec
import Verif.Props.WrongCodec
import Verif.Props.Shortcut
import Verif.Props.Graph
import Verif.Props.KmeansStats
import Verif.Props.Periodic
import Verif.Props.BackSearch
import Verif.Props.Allowance
import Verif.Props.BackNotes
import Verif.Props.BackMemory
import Verif.Props.BitOrder
import Verif.Props.DictDepth
import Verif.Props.Fewer
import Verif.Props.Edit
import Verif.Props.Join
import Verif.Props.Alternatives
import Verif.Props.Readme
import Verif.Props.BackPays
import Verif.Props.Damage
import Verif.Props.Passes
import Verif.Props.TreeDrop
import Verif.Props.CodeLengths
import Verif.Props.DictNotes
import Verif.Props.Twice
import Verif.Props.Background
import Verif.Props.Console
import Verif.Props.Short
import Verif.Props.Resync
import Verif.Props.Beginning
import Verif.Props.Touch
import Verif.Props.Pieces
import Verif.Props.Position
import Verif.Props.Consumed
import Verif.Props.Narrow
import Verif.Props.View
import Verif.Tests.Repo
