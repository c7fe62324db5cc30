import Verif.Model.Node
import Verif.Model.Trie
import Verif.Model.Ops
import Verif.Spec.Entries
import Verif.Spec.Map
import Verif.Lemmas.Nodes
import Verif.Lemmas.Match
import Verif.Lemmas.Lookup
import Verif.Lemmas.Insert
import Verif.Lemmas.Tree
import Verif.Lemmas.Search
import Verif.Lemmas.Modify
import Verif.Lemmas.Reach
import Verif.Lemmas.History
import Verif.Lemmas.Utf8
import Verif.Props.Write
import Verif.Props.Remove
import Verif.Lemmas.Join
import Verif.Lemmas.Strip
import Verif.Props.Entry
import Verif.Props.Join
import Verif.Props.Dup
import Verif.Lemmas.Retriever
import Verif.Lemmas.Captures
import Verif.Lemmas.Pattern
import Verif.Props.Route
import Verif.Props.Up
import Verif.Props.Pattern
import Verif.Model.Any
import Verif.Model.Store
import Verif.Spec.Leaves
import Verif.Lemmas.Store
import Verif.Lemmas.Load
import Verif.Props.Load
import Verif.Props.Handlers
import Verif.Model.Export
import Verif.Spec.Nested
import Verif.Lemmas.Runes
import Verif.Lemmas.Nested
import Verif.Lemmas.Export
import Verif.Props.Export
import Verif.Model.Cvt
import Verif.Spec.Paths
import Verif.Lemmas.Cvt
import Verif.Props.Cvt
import Verif.Model.Ctx
import Verif.Props.Ctx
import Verif.Model.Dur
import Verif.Lemmas.Dur
import Verif.Props.Dur
import Verif.Model.Bytes
import Verif.Props.Bytes
import Verif.Model.Getters
import Verif.Props.Getters
import Verif.Model.Remote
import Verif.Props.Remote
import Verif.Model.TTL
import Verif.Lemmas.TTL
import Verif.Props.TTL
import Verif.Props.SubExport
import Verif.Model.TrieMerge
import Verif.Props.TrieMerge
import Verif.Model.Env
import Verif.Props.Env
import Verif.Props.StoreRead
import Verif.Props.Walk
import Verif.Props.Delim
import Verif.Model.Maps
import Verif.Props.Maps
import Verif.Model.Loading
import Verif.Props.Loading
import Verif.Model.Dump
import Verif.Props.Dump
import Verif.Props.Ends
import Verif.Props.SetEx
import Verif.Props.Annot
import Verif.Model.Provider
import Verif.Props.Provider
import Verif.Props.Save
import Verif.Model.Watch
import Verif.Props.Watch
import Verif.Model.Mirror
import Verif.Props.Mirror
import Verif.Model.Section
import Verif.Props.Section
import Verif.Model.MirrorConsul
import Verif.Props.MirrorConsul
import Verif.Model.Reenter
import Verif.Props.Reenter
import Verif.Model.New
import Verif.Props.New
import Verif.Model.Hcl
import Verif.Props.Hcl
import Verif.Spec.Json
import Verif.Model.Text
import Verif.Props.Text
import Verif.Lemmas.Among
import Verif.Props.Among
import Verif.Props.Mixed
import Verif.Props.Compact
import Verif.Model.FileWatch
import Verif.Props.FileWatch
import Verif.Props.Erase
import Verif.Props.SameLeaves
import Verif.Props.Subset
import Verif.Props.Paste
import Verif.Model.Quote
import Verif.Props.Quote
import Verif.Props.Locate
import Verif.Model.NodeLock
import Verif.Props.NodeLock
import Verif.Model.TtlRace
import Verif.Props.TtlRace
import Verif.Model.Codecs
import Verif.Props.Codecs
import Verif.Model.Hjson
import Verif.Props.Hjson
import Verif.Model.Times
import Verif.Props.Times
import Verif.Model.Dummy
import Verif.Props.Dummy
import Verif.Props.Fields
import Verif.Model.Pool
import Verif.Model.ByteKeys
import Verif.Model.HclMarshal
import Verif.Props.Pool
import Verif.Props.ByteKeys
import Verif.Props.HclMarshal
import Verif.Model.ReadModes
import Verif.Props.ReadModes
import Verif.Model.Files
import Verif.Model.Cost
import Verif.Props.Files
import Verif.Props.Cost
import Verif.Model.Steps
import Verif.Lemmas.Steps
import Verif.Props.Steps
import Verif.Model.Heap
import Verif.Lemmas.Heap
import Verif.Lemmas.HeapTree
import Verif.Lemmas.HeapOps
import Verif.Props.Heap
import Verif.Lemmas.HeapWalk
import Verif.Props.HeapWalk
import Verif.Model.MapRefs
import Verif.Spec.MapRefs
import Verif.Lemmas.MapRefs
import Verif.Lemmas.MapExport
import Verif.Props.MapRefs
import Verif.Model.Race
import Verif.Spec.Race
import Verif.Lemmas.Race
import Verif.Lemmas.RaceSolo
import Verif.Lemmas.RaceStep
import Verif.Lemmas.RaceApart
import Verif.Lemmas.RaceWorld
import Verif.Props.Race
import Verif.Model.RaceRead
import Verif.Spec.RaceRead
import Verif.Lemmas.RaceRead
import Verif.Lemmas.RaceReplace
import Verif.Lemmas.RaceBeside
import Verif.Props.RaceRead
import Verif.Model.RaceRemove
import Verif.Spec.RaceRemove
import Verif.Lemmas.RaceRemove
import Verif.Lemmas.RacePlan
import Verif.Lemmas.RaceTidy
import Verif.Lemmas.RaceEnd
import Verif.Lemmas.RaceAfter
import Verif.Props.RaceRemove
import Verif.Model.RaceParts
import Verif.Spec.RaceParts
import Verif.Lemmas.RaceZone
import Verif.Lemmas.RaceRen
import Verif.Lemmas.RaceAlone
import Verif.Props.RaceParts
import Verif.Spec.RaceMix
import Verif.Lemmas.RaceCore
import Verif.Lemmas.RaceMix
import Verif.Props.RaceMix
import Verif.Model.RemoteWatch
import Verif.Props.RemoteWatch
import Verif.Model.StoreTtl
import Verif.Props.StoreTtl
import Verif.Model.CodecFiles
import Verif.Props.CodecFiles
import Verif.Model.RaceExport
import Verif.Spec.RaceExport
import Verif.Lemmas.RaceWalk
import Verif.Lemmas.RaceExport
import Verif.Lemmas.RaceMild
import Verif.Props.RaceExport
import Verif.Model.RaceSweep
import Verif.Lemmas.RaceSweep
import Verif.Lemmas.RaceSane
import Verif.Lemmas.RaceSkip
import Verif.Props.RaceSweep
import Verif.Model.RaceStore
import Verif.Spec.RaceStore
import Verif.Lemmas.RaceStore
import Verif.Lemmas.RaceNew
import Verif.Props.RaceStore
import Verif.Model.Integers
import Verif.Props.Integers
import Verif.Props.Sizes
import Verif.Lemmas.DurFloat
import Verif.Props.DurParse
import Verif.Props.DurNear
import Verif.Props.DurFrom
import Verif.Model.RaceTold
import Verif.Lemmas.RaceTold
import Verif.Props.RaceTold
import Verif.Lemmas.RaceMixGet
import Verif.Props.RaceMixGet
import Verif.Model.RaceMixExport
import Verif.Lemmas.RaceMixExport
import Verif.Props.RaceMixExport
import Verif.Model.BytesPoint
import Verif.Props.SizesPoint
import Verif.Model.RaceAll
import Verif.Lemmas.RaceAll
import Verif.Lemmas.RaceTwin
import Verif.Props.RaceAll
import Verif.Spec.RaceFresh
import Verif.Lemmas.RaceComes
import Verif.Lemmas.RaceFresh
import Verif.Lemmas.RaceDeck
import Verif.Props.RaceFresh
import Verif.Lemmas.RaceLooking
import Verif.Lemmas.RaceLeafGet
import Verif.Lemmas.RaceFreshMiss
import Verif.Props.RaceFreshGet
import Verif.Lemmas.RaceFreshExport
import Verif.Props.RaceFreshExport
import Verif.Props.RaceFreshAll
import Verif.Model.RaceDup
import Verif.Spec.RaceDup
import Verif.Lemmas.RaceDup
import Verif.Props.RaceDup
import Verif.Lemmas.RaceDupNew
import Verif.Props.RaceDupNew
import Verif.Spec.RaceGone
import Verif.Lemmas.RaceGone
import Verif.Lemmas.RaceDupAll
import Verif.Props.RaceDupAll
import Verif.Model.RaceVisit
import Verif.Spec.RaceVisit
import Verif.Lemmas.RaceVisit
import Verif.Props.RaceVisit
import Verif.Lemmas.RaceVisitNew
import Verif.Props.RaceVisitNew
import Verif.Model.RaceDump
import Verif.Lemmas.RaceDump
import Verif.Props.RaceDump
import Verif.Lemmas.RaceDumpNew
import Verif.Props.RaceDumpNew
import Verif.Lemmas.RaceDumpAll
import Verif.Props.RaceDumpAll
