import Verif.Base.AMap
import Verif.Base.BMap
import Verif.Base.Base64
import Verif.Base.Bytes
import Verif.Base.Chunks
import Verif.Base.Cid
import Verif.Base.CidText
import Verif.Base.Decimal
import Verif.Base.Json
import Verif.Base.PbWire
import Verif.Base.Prost
import Verif.Base.Radix
import Verif.Base.Snoc
import Verif.Base.Split
import Verif.Base.Utf8
import Verif.Bitswap.Behaviour
import Verif.Bitswap.Lemmas
import Verif.Bitswap.Message
import Verif.Bitswap.Prefix
import Verif.Http.Add
import Verif.Http.AddLemmas
import Verif.Http.Block
import Verif.Http.Bootstrap
import Verif.Http.Cat
import Verif.Http.Config
import Verif.Http.Daemon
import Verif.Http.Node
import Verif.Http.OnlyField
import Verif.Http.Pin
import Verif.Http.Publish
import Verif.Http.PubsubHttp
import Verif.Http.PubsubSub
import Verif.Http.Refs
import Verif.Http.RefsFormat
import Verif.Http.RefsOptions
import Verif.Http.Routes
import Verif.Http.Tar
import Verif.Http.TarLemmas
import Verif.Ipfs.Addr
import Verif.Ipfs.DagResolve
import Verif.Ipfs.DagStored
import Verif.Ipfs.DiskNode
import Verif.Ipfs.Ipns
import Verif.Ipfs.Listen
import Verif.Ipfs.ListenLemmas
import Verif.Ipfs.Path
import Verif.Ipfs.Pin
import Verif.Ipfs.Refs
import Verif.Ipfs.Task
import Verif.Ipld.Codec
import Verif.Ipld.DagCbor
import Verif.Ipld.DagJson
import Verif.Ipld.DagPb
import Verif.Ipld.Ipld
import Verif.Net.Bootstrap
import Verif.Net.Dial
import Verif.Net.Exchange
import Verif.Net.Kad
import Verif.Net.PinNet
import Verif.Net.Prog
import Verif.Net.Pubsub
import Verif.Net.Reader
import Verif.Net.Readers
import Verif.Net.Swarm
import Verif.Net.Timeout
import Verif.Props.Add
import Verif.Props.Addr
import Verif.Props.BitswapEvents
import Verif.Props.BitswapMessage
import Verif.Props.BitswapPeers
import Verif.Props.BitswapStats
import Verif.Props.BitswapWants
import Verif.Props.Block
import Verif.Props.Bootstrap
import Verif.Props.BrokenOff
import Verif.Props.Cat
import Verif.Props.Daemon
import Verif.Props.DagApi
import Verif.Props.DagCbor
import Verif.Props.DagCborCanon
import Verif.Props.DagJson
import Verif.Props.DagPb
import Verif.Props.DagResolve
import Verif.Props.DagStored
import Verif.Props.Details
import Verif.Props.Details2
import Verif.Props.Details3
import Verif.Props.Dial
import Verif.Props.DirBuild
import Verif.Props.DirInsert
import Verif.Props.DirOrder
import Verif.Props.DirResolve
import Verif.Props.DiskAnswers
import Verif.Props.DiskNode
import Verif.Props.Exchange
import Verif.Props.ExchangeBase
import Verif.Props.ExchangeExamples
import Verif.Props.ExchangeNode
import Verif.Props.ExchangeSafe
import Verif.Props.ExchangeSettle
import Verif.Props.File
import Verif.Props.FsBlocks
import Verif.Props.FsBlocksProgress
import Verif.Props.FsBlocksWait
import Verif.Props.FsPaths
import Verif.Props.Get
import Verif.Props.GetBlock
import Verif.Props.GetParts
import Verif.Props.HamtLookup
import Verif.Props.HostileFile
import Verif.Props.HttpBootstrap
import Verif.Props.HttpConfig
import Verif.Props.HttpConfigLoad
import Verif.Props.HttpDetails
import Verif.Props.HttpNode
import Verif.Props.HttpPin
import Verif.Props.HttpPinDetails
import Verif.Props.HttpPinRun
import Verif.Props.HttpRefs
import Verif.Props.HttpResolve
import Verif.Props.HttpRoutes
import Verif.Props.HttpSwarm
import Verif.Props.Ipns
import Verif.Props.Json
import Verif.Props.JsonLines
import Verif.Props.JsonWrite
import Verif.Props.Kad
import Verif.Props.KeptAdd
import Verif.Props.KeptFile
import Verif.Props.KnownAddrs
import Verif.Props.Listen
import Verif.Props.Lock
import Verif.Props.MemBlocks
import Verif.Props.NetFile
import Verif.Props.NetKept
import Verif.Props.NetServed
import Verif.Props.NetWalk
import Verif.Props.OnlyField
import Verif.Props.Path
import Verif.Props.Pin
import Verif.Props.PinNet
import Verif.Props.PinWhen
import Verif.Props.PinsFail
import Verif.Props.PinsFs
import Verif.Props.PinsKv
import Verif.Props.PinsList
import Verif.Props.PinsMem
import Verif.Props.Publish
import Verif.Props.Pubsub
import Verif.Props.PubsubHttp
import Verif.Props.PubsubSub
import Verif.Props.Refs
import Verif.Props.RefsFormat
import Verif.Props.RefsOptions
import Verif.Props.RefsOrder
import Verif.Props.RefsUnique
import Verif.Props.RemoveBlock
import Verif.Props.ShardWalk
import Verif.Props.Subs
import Verif.Props.SubsCancel
import Verif.Props.Swarm
import Verif.Props.Symlink
import Verif.Props.Tar
import Verif.Props.Task
import Verif.Props.Timeouts
import Verif.Props.TreeWalk
import Verif.Props.TwoReaders
import Verif.Props.WireMessage
import Verif.Repo.FsBlocks
import Verif.Repo.FsPaths
import Verif.Repo.FsPins
import Verif.Repo.FsPinsLemmas
import Verif.Repo.GetBlock
import Verif.Repo.KvPins
import Verif.Repo.Lock
import Verif.Repo.MemBlocks
import Verif.Repo.MemPins
import Verif.Repo.MemPinsLemmas
import Verif.Repo.PinCommon
import Verif.Repo.RemoveBlock
import Verif.Repo.Subs
import Verif.Spec.FileTree
import Verif.Spec.Pins
import Verif.Unixfs.Adder
import Verif.Unixfs.AdderFinish
import Verif.Unixfs.AdderLemmas
import Verif.Unixfs.Builder
import Verif.Unixfs.BuilderLemmas
import Verif.Unixfs.Dir
import Verif.Unixfs.FileBlocks
import Verif.Unixfs.FileFacts
import Verif.Unixfs.FileLog
import Verif.Unixfs.FileSum
import Verif.Unixfs.FileTree
import Verif.Unixfs.Pb
import Verif.Unixfs.PbLemmas
import Verif.Unixfs.Reader
import Verif.Unixfs.ReaderLemmas
import Verif.Unixfs.Symlink
import Verif.Unixfs.TreeIter
import Verif.Unixfs.TreeRun
import Verif.Unixfs.TreeSpec
import Verif.Unixfs.Walk
import Verif.Unixfs.WalkLemmas
