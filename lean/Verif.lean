import Verif.Model.Gear
import Verif.Model.FastCdc
import Verif.Model.Pigz
import Verif.Model.Ram
import Verif.Model.Gzip
import Verif.Model.Mii
import Verif.Model.Range
import Verif.Model.Zpaq
import Verif.Model.Zstd
import Verif.Model.Bup
import Verif.Model.Buzhash
import Verif.Spec.Rule
import Verif.Spec.Edges
import Verif.Spec.Stream
import Verif.Proofs.Lists
import Verif.Proofs.Sums
import Verif.Proofs.Conform
import Verif.Proofs.Window
import Verif.Proofs.Arith
import Verif.Proofs.Ring
import Verif.Proofs.Gear
import Verif.Proofs.FastCdc
import Verif.Proofs.Pigz
import Verif.Proofs.Ram
import Verif.Proofs.Gzip
import Verif.Proofs.Mii
import Verif.Proofs.Zpaq
import Verif.Proofs.Bup
import Verif.Proofs.Buzhash
import Verif.Proofs.Zstd
import Verif.Proofs.Chunks
import Verif.Proofs.Iter
import Verif.Proofs.Total
import Verif.Proofs.IterGeneric
import Verif.Proofs.FastCdcLoops
import Verif.Proofs.DocRest
import Verif.Proofs.ZstdDrift
import Verif.Props.IterDefs
import Verif.Props.Instances
import Verif.Props.Iterators
import Verif.Props.IterMore
import Verif.Props.ConformDefs
import Verif.Props.Conformance
import Verif.Props.FastCdc
import Verif.Props.Zstd
import Verif.Props.Constructors
import Verif.Props.Sizes
import Verif.Props.Agree
import Verif.Props.Local
import Verif.Props.Resync
import Verif.Props.Counters
import Verif.Props.Defaults
import Verif.Props.Loops
import Verif.Props.ZstdDrift
import Verif.Props.Log2
import Verif.Props.Streaming
import Verif.Props.ZstdIter
import Verif.Props.Keeps
import Verif.Props.Constant
import Verif.Props.Slices
import Verif.Props.Counting
import Verif.Props.Frequency
import Verif.Props.FreqTables
import Verif.Props.Recover
import Verif.Props.Lost
import Verif.Props.SizeSets
import Verif.Props.SizeTables
import Verif.Props.Periodic
import Verif.Props.Buffers
import Verif.Props.Mean
import Verif.Props.MeanSizes
import Verif.Props.MeanMii
import Verif.Props.Renew
import Verif.Props.FreqBup
import Verif.Props.Distribution
import Verif.Props.BoundaryDefs
import Verif.Props.Boundary
import Verif.Props.BoundaryStrings
import Verif.Props.Coarse
import Verif.Props.Code
import Verif.Props.Seed
import Verif.Props.Equality
import Verif.Props.ZpaqRuns
import Verif.Props.Memory
import Verif.Props.Alphabet
import Verif.Props.WalshDefs
import Verif.Props.FreqBuz
import Verif.Props.GearDigits
import Verif.Props.FreqGear
import Verif.Props.MeanBounds
import Verif.Props.BuzPairs
import Verif.Props.MeanBuz
import Verif.Props.GearTop
import Verif.Props.MeanGear
import Verif.Props.MeanBup
import Verif.Props.FcdcDigits
import Verif.Props.FreqFcdc
import Verif.Check.Cuts
