import Verif.Props.PairCompressor
import Verif.Props.PairCompressorFull
import Verif.Props.KeyMask
import Verif.Props.RangeCompressor
import Verif.Props.CompressionChecker
import Verif.Props.OrderedCovering
import Verif.Props.OrderedCoveringAgain
import Verif.Props.OrderedCoveringRefine
import Verif.Props.OrderedCoveringBest
import Verif.Props.RoutingTables
import Verif.Props.CompressorDriver
import Verif.Props.Allocator
import Verif.Props.RoutingInfo
import Verif.Props.TableByPartition
import Verif.Props.MergeEntries
import Verif.Props.Generators
import Verif.Props.Tags
import Verif.Props.Placements
import Verif.Props.Slices
import Verif.Props.ChipCounter
import Verif.Props.RouteWord
import Verif.Props.Json
import Verif.Props.Sdram
import Verif.Props.MultiRegion
import Verif.Props.Partitions
import Verif.Props.AppGraph
import Verif.Props.Device2D
import Verif.Props.FixedRoute
import Verif.Props.RouterPath
import Verif.Props.Targets
import Verif.Props.RouterTree
import Verif.Props.Router
import Verif.Props.RouterGraph
import Verif.Props.Validation
import Verif.Props.Placer
import Verif.Props.PlacerRoom
import Verif.Props.PlacerFixed
import Verif.Model.Pipeline
import Verif.Spec.Pipeline
import Verif.Proofs.PipelineTidy
import Verif.Proofs.PipelineKeys
import Verif.Proofs.PipelineTables
import Verif.Props.Pipeline
import Verif.Proofs.RouterInto
import Verif.Proofs.RouterFlow
import Verif.Spec.Trips
import Verif.Proofs.RouterOnce
import Verif.Proofs.Trips
import Verif.Props.MiniNet
import Verif.Props.Trips
import Verif.Props.Precompressed
import Verif.Spec.Wanted
import Verif.Proofs.RouterWanted
import Verif.Props.Wanted
import Verif.Model.Splitters
import Verif.Spec.Splitters
import Verif.Proofs.Splitters
import Verif.Proofs.SplitterState
import Verif.Proofs.SplitterPartition
import Verif.Proofs.SplitterKnown
import Verif.Proofs.SplitterDevice
import Verif.Props.Splitters
import Verif.Props.SplitterChips
import Verif.Props.SplitterDevice
import Verif.Props.SplitterMax
import Verif.Model.VertexLocation
import Verif.Props.VertexLocation
import Verif.Props.SplitterSlices
import Verif.Model.SplitterNet
import Verif.Spec.SplitterNet
import Verif.Proofs.SplitterNet
import Verif.Props.SplitterNet
import Verif.Props.PlacerVirtual
import Verif.Model.Mapping
import Verif.Spec.Mapping
import Verif.Proofs.Mapping
import Verif.Props.Mapping
import Verif.Props.MappingRoom
import Verif.Model.DataView
import Verif.Spec.DataView
import Verif.Proofs.DataView
import Verif.Props.DataView
import Verif.Props.DataViewSdram
import Verif.Props.DataViewGraph
import Verif.Props.DataViewChips
import Verif.Spec.RouterWhole
import Verif.Props.RouterWhole
import Verif.Props.MappingWhole
import Verif.Spec.RouterSucceeds
import Verif.Proofs.RouterSucceeds
import Verif.Props.RouterSucceeds
import Verif.Spec.MappingRoutes
import Verif.Proofs.MappingRoutes
import Verif.Props.MappingRoutes
import Verif.Spec.MappingSucceeds
import Verif.Proofs.MappingSucceeds
import Verif.Props.MappingSucceeds
import Verif.Spec.PartitionSucceeds
import Verif.Proofs.PartitionSucceeds
import Verif.Props.PartitionSucceeds
import Verif.Proofs.PlacerFits
import Verif.Props.PlacerFits
import Verif.Proofs.PlacerShared
import Verif.Props.MappingShared
import Verif.Spec.MappingGraph
import Verif.Props.MappingGraph
import Verif.Props.SliceText
import Verif.Props.Csv
import Verif.Spec.SdramParts
import Verif.Props.SdramParts
import Verif.Proofs.Blocks
import Verif.Spec.Compressed
import Verif.Props.Compressed
import Verif.Props.CompressorFits
import Verif.Proofs.TableSize
import Verif.Props.CompressedFits
import Verif.Props.MappingCompressed
import Verif.Model.RoutingTree
import Verif.Spec.RoutingTree
import Verif.Proofs.RoutingTree
import Verif.Props.RoutingTree
import Verif.Props.PlacerCosts
import Verif.Model.AtomKeys
import Verif.Props.AtomKeys
import Verif.Model.Hashing
import Verif.Props.Hashing
import Verif.Spec.ValidationMapped
import Verif.Proofs.ValidationAccepts
import Verif.Props.ValidationMapped
import Verif.Props.MappingChecked
import Verif.Spec.AllocatorIndex
import Verif.Props.AllocatorIndex
import Verif.Proofs.SplitterAnew
import Verif.Spec.AllocatorFits
import Verif.Props.AllocatorFits
import Verif.Props.RoundAtoms
import Verif.Spec.PlacerSpread
import Verif.Proofs.PlacerSpread
import Verif.Props.PlacerSpread
import Verif.Model.IterNext
import Verif.Spec.IterNext
import Verif.Props.IterNext
import Verif.Spec.MappingDevices
import Verif.Proofs.MappingDevices
import Verif.Props.MappingDevices
import Verif.Props.MappingDevicesTables
import Verif.Spec.MappingPixels
import Verif.Proofs.PixelKeys
import Verif.Props.MappingPixels
import Verif.Props.MappingPixelsTables
import Verif.Spec.PlacerBeside
import Verif.Proofs.PlacerBeside
import Verif.Props.PlacerBeside
import Verif.Props.MappingBeside
import Verif.Model.PlacerReport
import Verif.Spec.PlacerReport
import Verif.Proofs.PlacerReport
import Verif.Props.PlacerReport
import Verif.Proofs.RangeRuns
import Verif.Props.RangeCompressorRuns
import Verif.Props.MergedLength
import Verif.Proofs.PairCounts
import Verif.Props.TableRoom
import Verif.Props.TagsEnough
import Verif.Props.CounterBound
import Verif.Props.CounterMono
import Verif.Props.TagsHome
import Verif.Props.KeysQuarter
import Verif.Props.KeysMono
import Verif.Props.DefaultSpare
import Verif.Props.CompressTwice
import Verif.Props.TagsMono
import Verif.Props.PlacerLess
import Verif.Props.SlicesLeast
import Verif.Props.MoreLinks
import Verif.Props.CoveringTarget
import Verif.Props.SdramLonger
import Verif.Props.CheckerSteps
import Verif.Props.CheckerAccepts
