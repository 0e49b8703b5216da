import Verif.Model.GoMap
import Verif.Model.Types
import Verif.Model.Metric
import Verif.Model.Memory
import Verif.Lemmas.Memory
import Verif.Props.Memory
import Verif.Props.Text
import Verif.Props.Filters
import Verif.Props.Flatten
import Verif.Props.SetOps
import Verif.Props.LRU
import Verif.Props.LinkedList
import Verif.Props.PointerLRU
import Verif.Props.Caches
import Verif.Props.Serialize
import Verif.Model.FlatBytes
import Verif.Props.FlatBytes
import Verif.Props.File
import Verif.Props.SFileView
import Verif.Props.DiskIndex
import Verif.Props.Counters
import Verif.Props.CountersCrash
import Verif.Props.Score
import Verif.Props.Search
import Verif.Props.Alias
import Verif.Props.NaN
import Verif.Props.Http
import Verif.Props.Language
import Verif.Props.Docs
import Verif.Props.DiskStore
import Verif.Props.DiskLive
import Verif.Props.SearchOrder
import Verif.Props.Rounded
import Verif.Model.DiskSearch
import Verif.Props.DiskSearch
import Verif.Props.DiskWhole
import Verif.Model.Ingest
import Verif.Props.Ingest
import Verif.Model.Concurrent
import Verif.Props.Concurrent
import Verif.Model.LiveSearch
import Verif.Lemmas.LiveSearch
import Verif.Props.LiveSearch
import Verif.Props.LiveSearchOwn
import Verif.Props.LiveSearchRest
import Verif.Props.LiveSearchNumbers
import Verif.Props.LiveSearchRaces
import Verif.Model.ConcurrentDisk
import Verif.Lemmas.ConcurrentDisk
import Verif.Lemmas.ConcurrentDiskCounters
import Verif.Props.ConcurrentDisk
import Verif.Props.ConcurrentDiskLive
import Verif.Lemmas.ConcurrentDiskOwn
import Verif.Lemmas.ConcurrentDiskParts
import Verif.Props.ConcurrentDiskOwn
import Verif.Lemmas.ConcurrentDiskDocs
import Verif.Lemmas.ConcurrentDiskRead
import Verif.Props.ConcurrentDiskDocs
import Verif.Props.ConcurrentDiskRaces
import Verif.Model.LiveDisk
import Verif.Lemmas.LiveDisk
import Verif.Props.LiveDisk
import Verif.Props.LiveDiskEnds
import Verif.Props.LiveDiskFinds
import Verif.Model.Server
import Verif.Spec.Server
import Verif.Lemmas.Server
import Verif.Lemmas.ServerCollect
import Verif.Props.Server
import Verif.Props.ServerEnds
import Verif.Props.ServerFinds
import Verif.Props.ServerRest
import Verif.Props.ServerWitness
import Verif.Props.ServerAsked
import Verif.Lemmas.Near
import Verif.Props.ScoreError
import Verif.Model.Json
import Verif.Model.Collection
import Verif.Lemmas.Json
import Verif.Props.Collection
import Verif.Props.Lines
import Verif.Spec.Json
import Verif.Spec.Utf8
import Verif.Lemmas.Utf8
import Verif.Lemmas.JsonGrammar
import Verif.Lemmas.JsonStruct
import Verif.Model.Bind
import Verif.Props.Bind
import Verif.Props.Float64
import Verif.Props.Float64Ops
import Verif.Model.HttpBytes
import Verif.Spec.HttpBytes
import Verif.Props.HttpBytes
import Verif.Props.HttpServed
import Verif.Props.Float64Search
import Verif.Props.HttpLive
import Verif.Model.Gzip
import Verif.Spec.Gzip
import Verif.Props.GzipHuffman
import Verif.Props.GzipBlocks
import Verif.Props.GzipCrc
import Verif.Props.Gzip
import Verif.Model.DiskBytes
import Verif.Lemmas.DiskBytesFS
import Verif.Lemmas.DiskBytes
import Verif.Lemmas.DiskBytesNames
import Verif.Lemmas.DiskBytesFlush
import Verif.Lemmas.DiskBytesRel
import Verif.Lemmas.DiskBytesClient
import Verif.Lemmas.DiskBytesSimFlush
import Verif.Lemmas.DiskBytesWriter
import Verif.Lemmas.DiskBytesMerge
import Verif.Lemmas.DiskBytesOpen
import Verif.Lemmas.DiskBytesSim
import Verif.Lemmas.DiskBytesRestart
import Verif.Props.DiskBytes
import Verif.Props.DiskBytesCases
import Verif.Props.HostileId
import Verif.Model.ServerBytes
import Verif.Lemmas.ServerBytes
import Verif.Props.ServerBytes
import Verif.Props.ServerBytesCases
import Verif.Spec.Decimal
import Verif.Model.Strconv
import Verif.Lemmas.Strconv
import Verif.Lemmas.Shortest
import Verif.Props.Strconv
import Verif.Props.StrconvUse
import Verif.Model.Int64
import Verif.Props.Int64
import Verif.Model.Feed
import Verif.Spec.Feed
import Verif.Props.Feed
import Verif.Model.Faults
import Verif.Lemmas.Faults
import Verif.Props.Faults
import Verif.Spec.Corpus
import Verif.Props.Corpus
import Verif.Props.CorpusHttp
import Verif.Props.ServerLoaded
import Verif.Props.CorpusServer
import Verif.Props.CorpusBytes
import Verif.Props.Opening
import Verif.Props.OpeningCases
import Verif.Props.OpeningRead
import Verif.Props.Instances
import Verif.Props.CorpusBytesCases
import Verif.Spec.FolderSearch
import Verif.Lemmas.FolderServer
import Verif.Props.FolderServer
import Verif.Props.FolderServerEnds
import Verif.Props.FolderServerCases
import Verif.Props.OpeningKill
import Verif.Props.OpeningKillCases
import Verif.Props.OpeningKillSearch
import Verif.Model.Shared
import Verif.Props.Shared
import Verif.Props.SharedAnswers
import Verif.Props.SharedCases
import Verif.Model.Replicas
import Verif.Props.Replicas
import Verif.Props.ReplicasEnds
import Verif.Props.ReplicasCases
import Verif.Props.Backup
import Verif.Props.BackupCases
import Verif.Props.BackupSearch
import Verif.Props.DiskBytesDocs
import Verif.Props.DiskBytesDocsCases
import Verif.Props.DiskBytesLive
import Verif.Props.DiskBytesEnds
import Verif.Model.LocalHeap
import Verif.Spec.LocalMap
import Verif.Props.LocalMap
