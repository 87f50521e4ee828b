import Verif.Prelude.Rust
import Verif.Prelude.Bytes
import Verif.Prelude.BMap
import Verif.Model.Sha256
import Verif.Model.Strict
import Verif.Model.Engine
import Verif.Model.Merkle
import Verif.Model.Atoms
import Verif.Model.Block
import Verif.Model.Tree
import Verif.Model.Schemes
import Verif.Model.Seals
import Verif.Model.Api
import Verif.Spec.Hash
import Verif.Proofs.Hash
import Verif.Spec.PartialTree
import Verif.Spec.Tree
import Verif.Spec.Proof
import Verif.Spec.Merge
import Verif.Proofs.Conceal
import Verif.Proofs.ConcealTree
import Verif.Proofs.ConcealOuter
import Verif.Proofs.BMap
import Verif.Proofs.ConcealExcept
import Verif.Proofs.CommitChar
import Verif.Proofs.Tree
import Verif.Proofs.Frontier
import Verif.Proofs.Path
import Verif.Proofs.Binding
import Verif.Proofs.Merge
import Verif.Spec.Commit
import Verif.Proofs.Commit
import Verif.Spec.View
import Verif.Proofs.View
import Verif.Props.Schemes
import Verif.Props.Seals
import Verif.Props.Api
import Verif.Props.Commit
import Verif.Proofs.Fit
import Verif.Props.Fit
import Verif.Spec.Block
import Verif.Proofs.Canon
import Verif.Proofs.Sample
import Verif.Props.Conceal
import Verif.Proofs.Proof
import Verif.Props.Proof
import Verif.Spec.History
import Verif.Proofs.History
import Verif.Spec.Buoy
import Verif.Proofs.Buoy
import Verif.Props.Merge
import Verif.Props.MergeAny
import Verif.Props.MergeIff
import Verif.Props.Block
import Verif.Props.Profiles
import Verif.Spec.Merklize
import Verif.Proofs.Merklize
import Verif.Props.Merkle
import Verif.Model.Derive
import Verif.Spec.Calls
import Verif.Spec.Refines
import Verif.Proofs.Calls
import Verif.Props.Engine
import Verif.Model.Codec
import Verif.Spec.Codec
import Verif.Proofs.Codec
import Verif.Props.Codec
import Verif.Model.Vesper
import Verif.Spec.Vesper
import Verif.Props.Vesper
import Verif.Props.TreeBinding
import Verif.Props.Matches
import Verif.Props.Wire
import Verif.Props.Layout
import Verif.Props.Received
import Verif.Props.Release
import Verif.Props.Refine
import Verif.Props.Source
import Verif.Props.Vectors
import Verif.Model.Digest
import Verif.Props.Digest
import Verif.Props.Size
import Verif.Props.Closing
import Verif.Spec.TypeLib
import Verif.Spec.Reference
import Verif.Proofs.TypeLib
import Verif.Props.TypeLib
import Verif.Props.Reference
import Verif.Props.KnownMap
import Verif.Props.Unique
import Verif.Model.SealCodec
import Verif.Props.Row
import Verif.Props.RowMerge
import Verif.Props.SealWire
import Verif.Props.Disclose
import Verif.Spec.Record
import Verif.Props.Record
import Verif.Model.Params
import Verif.Props.Params
import Verif.Props.Absence
import Verif.Props.AnyBlock
import Verif.Props.ReleaseProofs
import Verif.Spec.Hashed
import Verif.Props.Hashed
import Verif.Props.HashedRecord
import Verif.Spec.Work
import Verif.Props.Work
import Verif.Props.Hiding
import Verif.Model.Text
import Verif.Props.Text
import Verif.Proofs.Count
import Verif.Props.Typical
import Verif.Props.Contract
import Verif.Props.Oracle
import Verif.Props.Guess
import Verif.Props.Monotone
import Verif.Props.SmallDepth
import Verif.Spec.Compression
import Verif.Proofs.Compression
import Verif.Props.Compression
import Verif.Props.Collections
import Verif.Props.Ids
import Verif.Props.ReceivedTree
import Verif.Props.Stream
import Verif.Run
import Verif.Proofs.Needs
import Verif.Proofs.LeafNeeded
import Verif.Props.Cost
import Verif.Model.Literal
import Verif.Proofs.Literal
import Verif.Spec.AnyBuoy
import Verif.Proofs.AnyBuoy
import Verif.Props.AnyBuoy
import Verif.Spec.Update
import Verif.Props.Update
import Verif.Props.Join
import Verif.Props.Tests
import Verif.Spec.Nested
import Verif.Props.Nested
import Verif.Props.Witness
import Verif.Spec.Resolve
import Verif.Props.Validate
import Verif.Model.Suites
import Verif.Proofs.Suites
import Verif.Props.Suites
import Verif.Props.Stacked
import Verif.Spec.Network
import Verif.Props.Network
import Verif.Spec.Async
import Verif.Props.Async
import Verif.Spec.Stash
import Verif.Props.Stash
import Verif.Spec.Smallest
import Verif.Props.Smallest
import Verif.Cases.Apis
import Verif.Cases.Base
import Verif.Cases.Blocks
import Verif.Cases.Commit
import Verif.Cases.Real
import Verif.Cases.Other
import Verif.Props.Known
import Verif.Proofs.Later
import Verif.Spec.Chain
import Verif.Props.Chain
import Verif.Props.Second
import Verif.Props.Revealed
import Verif.Props.Order
import Verif.Proofs.SameRecord
import Verif.Props.RecordDecided
import Verif.Props.Settled
import Verif.Props.AbsentDecided
