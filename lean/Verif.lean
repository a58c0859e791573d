import Verif.Basic
import Verif.Policy.Model
import Verif.Policy.Spec
import Verif.Policy.Proofs
import Verif.Policy.Emission
import Verif.Policy.Conc
import Verif.Policy.Props
import Verif.Policy.Lanes
import Verif.Policy.Chunks
import Verif.Policy.Exact
import Verif.Address.Base32
import Verif.Address.Check
import Verif.Address.Proofs
import Verif.Address.Props
import Verif.Tree.NibblesProps
import Verif.Tree.Value
import Verif.Tree.Props
import Verif.Beserial.Props
import Verif.Wire.Model
import Verif.Wire.Lawful
import Verif.Wire.Codecs
import Verif.Wire.Interlink
import Verif.Wire.Messages
import Verif.Wire.Sign
import Verif.Wire.Compact
import Verif.Wire.Misc
import Verif.Wire.Reuse
import Verif.Wire.Zero
import Verif.Wire.WalletConc
import Verif.Wire.Strict
import Verif.Wire.Layouts
import Verif.Wire.BlockLayout
import Verif.Accounts.Float
import Verif.Accounts.Model
import Verif.Accounts.Abstract
import Verif.Accounts.Steps
import Verif.Accounts.Prune
import Verif.Accounts.Spec
import Verif.Accounts.Supply
import Verif.Accounts.Props
import Verif.Accounts.Complete
import Verif.Accounts.Plain
import Verif.Accounts.Exact
import Verif.Accounts.ContractSpec
import Verif.Accounts.Contract
import Verif.Accounts.Unlock
import Verif.Accounts.ContractProps
import Verif.Accounts.Single
import Verif.Accounts.Atomic
import Verif.Accounts.NoPanic
import Verif.Accounts.Unsigned
import Verif.Accounts.Order
import Verif.Accounts.Shared
import Verif.Accounts.AnyStore
import Verif.Accounts.PruneProps
import Verif.Genesis.Model
import Verif.Genesis.Spec
import Verif.Genesis.Props
import Verif.Genesis.Profile
import Verif.Genesis.Replay
import Verif.Genesis.Export
import Verif.Conformance.Vectors
import Verif.Accounts.Repeat
import Verif.Accounts.ChainSupply
import Verif.Wire.SizeMethods
import Verif.Accounts.Undo
import Verif.Accounts.Recover
import Verif.Genesis.Complete
import Verif.Beserial.Prefix
import Verif.Wire.Alloc
import Verif.Address.Alias
import Verif.Tree.SliceModel
import Verif.Tree.Slices
import Verif.Tree.SliceProps
import Verif.Tree.Cost
import Verif.Tree.StoreCopy
import Verif.Tree.Interrupt
import Verif.Accounts.Errors
import Verif.Tree.Readers
import Verif.Tree.Access
import Verif.Genesis.Embedded
import Verif.Accounts.Isolation
import Verif.Policy.Cost
import Verif.Wire.SignedTarget
import Verif.Wire.WalletAny
import Verif.Accounts.Platform
import Verif.Accounts.Crash
import Verif.Accounts.Witness
import Verif.Beserial.Work
import Verif.Wire.Work
import Verif.Beserial.HeapModel
import Verif.Beserial.Heap
import Verif.Wire.HeapModel
import Verif.Wire.Heap
import Verif.Beserial.Append
import Verif.Beserial.Rec
import Verif.Accounts.PruneOrder
import Verif.Wire.Append
import Verif.Blake.Spec
import Verif.Blake.Fast
import Verif.Tree.Fast
import Verif.Genesis.RootEntries
import Verif.Genesis.RootCheck
import Verif.Genesis.RootTest
import Verif.Genesis.RootMain
import Verif.Genesis.RealHash
import Verif.Accounts.Handmade
import Verif.Accounts.Foreign
import Verif.Wire.Nibbles
import Verif.Wire.Views
import Verif.Accounts.Prog
import Verif.Accounts.Observe
import Verif.Tree.Discard
import Verif.Accounts.Tentative
import Verif.Accounts.Local
import Verif.Accounts.HashWork
import Verif.Tree.Broken
import Verif.Tree.Writers
import Verif.Tree.HandNodes
import Verif.Accounts.Empty
import Verif.Accounts.ForeignTx
import Verif.Accounts.VestingCreation
import Verif.Accounts.Concurrent
import Verif.Tree.Forks
import Verif.Accounts.Forks
import Verif.Beserial.Width
import Verif.Wire.Width
import Verif.Tree.MidFlush
import Verif.Accounts.MidFlush
import Verif.Beserial.IntSize
import Verif.Wire.IntSize
import Verif.Accounts.Texts
import Verif.Beserial.WorkExact
import Verif.Beserial.AllocExact
import Verif.Beserial.RecSame
import Verif.Beserial.RecSize
import Verif.Beserial.RecTotal
import Verif.Beserial.RecSizeTotal
import Verif.Beserial.RecSound
import Verif.Beserial.RecPrefix
