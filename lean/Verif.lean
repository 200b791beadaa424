import Verif.Model.Types
import Verif.Model.Util
import Verif.Model.Query
import Verif.Model.Env
import Verif.Model.Seq
import Verif.Model.Read
import Verif.Model.Write
import Verif.Model.Iter
import Verif.Model.IndexIter
import Verif.Model.Builder
import Verif.Model.Stream
import Verif.Model.Channel
import Verif.Spec.Laws
import Verif.Spec.Tree
import Verif.Spec.Errors
import Verif.Spec.Frame
import Verif.Proofs.Basic
import Verif.Proofs.Seq
import Verif.Proofs.Hoare
import Verif.Proofs.Node
import Verif.Proofs.FrameOps
import Verif.Proofs.Extend
import Verif.Proofs.ExtendTree
import Verif.Proofs.BuilderFrame
import Verif.Proofs.ExtendRoot
import Verif.Proofs.Read
import Verif.Proofs.RootsSpec
import Verif.Proofs.Roots
import Verif.Proofs.Pack
import Verif.Spec.Query
import Verif.Spec.Purge
import Verif.Proofs.Retain
import Verif.Spec.History
import Verif.Spec.Observe
import Verif.Proofs.History
import Verif.Proofs.Observe
import Verif.Concrete.Codec
import Verif.Concrete.Env
import Verif.Concrete.States
import Verif.Concrete.KeyQuery
import Verif.Props.Append
import Verif.Props.Pack
import Verif.Proofs.Unique
import Verif.Concrete.Load
import Verif.Concrete.Free
import Verif.Props.Retain
import Verif.Props.Read
import Verif.Props.Atomic
import Verif.Proofs.AtEnd
import Verif.Proofs.Sees
import Verif.Spec.Cache
import Verif.Proofs.Cache
import Verif.Props.Cipher
import Verif.Props.Reload
import Verif.Props.Cache
import Verif.Spec.Iter
import Verif.Proofs.Chunks
import Verif.Proofs.Iter
import Verif.Proofs.ChunkSpec
import Verif.Proofs.SnapIter
import Verif.Props.Iter
import Verif.Props.Query
import Verif.Spec.Nodes
import Verif.Proofs.NodeInvs
import Verif.Props.Nodes
import Verif.Spec.IndexIter
import Verif.Proofs.IndexIter
import Verif.Props.Index
import Verif.Spec.Damage
import Verif.Proofs.Damage
import Verif.Concrete.Hole
import Verif.Props.Damage
import Verif.Spec.Stream
import Verif.Spec.Channel
import Verif.Proofs.Stream
import Verif.Proofs.Channel
import Verif.Props.Stream
import Verif.Props.Channel
import Verif.Spec.Graph
import Verif.Proofs.Graph
import Verif.Props.Graph
import Verif.Model.TagIndex
import Verif.Spec.Tags
import Verif.Proofs.Tags
import Verif.Props.Tags
import Verif.Model.Compact
import Verif.Model.Tags
import Verif.Spec.TagTree
import Verif.Proofs.TagSeq
import Verif.Proofs.TagQuery
import Verif.Proofs.ChunkCongr
import Verif.Proofs.TagTree
import Verif.Concrete.Generic
import Verif.Concrete.Tagged
import Verif.Concrete.LoadG
import Verif.Props.TagTree
import Verif.Model.Varint
import Verif.Model.MemStore
import Verif.Model.MemCache
import Verif.Spec.Stores
import Verif.Spec.StoreEnv
import Verif.Proofs.Stores
import Verif.Concrete.Lru
import Verif.Props.Stores
import Verif.Model.Cid
import Verif.Model.Cbor
import Verif.Spec.Wire
import Verif.Spec.WireEnv
import Verif.Proofs.Cbor
import Verif.Concrete.Wire
import Verif.Props.Wire
import Verif.Proofs.Stuck
import Verif.Props.Config
import Verif.Proofs.Large
import Verif.Props.Large
import Verif.Spec.Yields
import Verif.Spec.Repair
import Verif.Proofs.Snap
import Verif.Proofs.Repair
import Verif.Props.Repair
import Verif.Spec.Shape
import Verif.Proofs.Shape
import Verif.Props.Shape
import Verif.Spec.Partial
import Verif.Proofs.Partial
import Verif.Props.Partial
import Verif.Props.Reconfigure
import Verif.Spec.Check
import Verif.Proofs.Check
import Verif.Props.Check
import Verif.Spec.Keys
import Verif.Props.Keys
import Verif.Spec.Depth
import Verif.Proofs.Depth
import Verif.Props.Depth
import Verif.Spec.Writes
import Verif.Proofs.Writes
import Verif.Props.Writes
import Verif.Model.Pubsub
import Verif.Spec.Pubsub
import Verif.Props.Pubsub
import Verif.Spec.Again
import Verif.Proofs.Again
import Verif.Props.Again
import Verif.Spec.Outline
import Verif.Props.Outline
import Verif.Proofs.InStep
import Verif.Props.Histories
import Verif.Model.Text
import Verif.Proofs.Text
import Verif.Props.Text
import Verif.Spec.Report
import Verif.Proofs.Report
import Verif.Props.Report
import Verif.Model.Backends
import Verif.Spec.Backends
import Verif.Props.Backends
import Verif.Model.Dump
import Verif.Spec.Dump
import Verif.Proofs.Dump
import Verif.Props.Dump
import Verif.Model.Cli
import Verif.Proofs.LoadTree
import Verif.Proofs.Cli
import Verif.Props.Cli
import Verif.Props.CliStream
import Verif.Spec.Forest
import Verif.Props.Forest
import Verif.Props.BlockCache
import Verif.Model.Prog
import Verif.Spec.Prog
import Verif.Proofs.Prog
import Verif.Proofs.Threads
import Verif.Props.Threads
import Verif.Model.WProg
import Verif.Spec.WProg
import Verif.Proofs.WProg
import Verif.Proofs.Works
import Verif.Spec.Pool
import Verif.Proofs.Pool
import Verif.Props.Works
import Verif.Spec.Edge
import Verif.Proofs.Edge
import Verif.Props.Edge
import Verif.Proofs.PackEdge
import Verif.Proofs.Fresh
import Verif.Proofs.Grown
import Verif.Props.PackEdge
import Verif.Props.Roots
import Verif.Props.PackWrites
import Verif.Props.PartialStream
import Verif.Props.Loaded
import Verif.Props.Collect
import Verif.Model.IndexProg
import Verif.Props.IndexThreads
import Verif.Props.Purge
