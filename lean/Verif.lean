import Verif.Consensus.SafetyLogic
import Verif.Consensus.SafetyLemmas
import Verif.Consensus.SafetyRefine
import Verif.Consensus.SafetySpec
import Verif.Consensus.Quorum
import Verif.Consensus.SafetyProps
import Verif.Consensus.SafetyProps2
import Verif.Consensus.SafetyExamples
import Verif.Consensus.Protocol
import Verif.Consensus.ProtocolEff
import Verif.Consensus.ExitLemmas
import Verif.Consensus.ProtocolInv
import Verif.Consensus.ProtocolPres
import Verif.Consensus.ProtocolPres2
import Verif.Consensus.RangeLemmas
import Verif.Consensus.Agreement
import Verif.Consensus.C01
import Verif.Consensus.C01Examples
import Verif.Consensus.Crash
import Verif.Consensus.CrashExamples
import Verif.Window.Model
import Verif.Window.Spec
import Verif.Window.Proofs
import Verif.Window.Props
import Verif.Cert.Model
import Verif.Cert.Spec
import Verif.Cert.Proofs
import Verif.Cert.Proofs2
import Verif.Cert.Props
import Verif.Collector.Model
import Verif.Collector.Proofs
import Verif.Collector.Props
import Verif.Collector.Progress
import Verif.Util.Bytes
import Verif.VCBytes.Model
import Verif.VCBytes.Spec
import Verif.VCBytes.Proofs
import Verif.VCBytes.Proofs2
import Verif.VCBytes.Props
import Verif.Util.ListLemmas
import Verif.Client.Matcher
import Verif.Client.Props
import Verif.Clients.Model
import Verif.Clients.PageLemmas
import Verif.Clients.Proofs
import Verif.Clients.Proofs2
import Verif.Clients.Props
import Verif.Exec.Model
import Verif.Exec.Spec
import Verif.Exec.Proofs
import Verif.Exec.Inv
import Verif.Exec.Props
import Verif.Exec.Repeat
import Verif.Time.Model
import Verif.Time.Props
import Verif.Digest.Combine
import Verif.Digest.Across
import Verif.PrePrepare.Model
import Verif.PrePrepare.Proofs
import Verif.PrePrepare.Props
import Verif.PrePrepare.Findings
import Verif.Lru.Model
import Verif.Lru.Props
import Verif.Replicas.Model
import Verif.Replicas.Props
import Verif.Cron.Model
import Verif.Cron.Props
import Verif.Smt.Model
import Verif.Smt.Trie
import Verif.Smt.NodeInsert
import Verif.Smt.NodeRemove
import Verif.Smt.TreeInsert
import Verif.Smt.Insert
import Verif.Smt.Remove
import Verif.Smt.Spec
import Verif.Smt.Sem
import Verif.Smt.Batch
import Verif.Smt.Store
import Verif.Smt.Hist
import Verif.Smt.Props
import Verif.Smt.Binding
import Verif.Smt.Examples
import Verif.Kvbc.Versioned
import Verif.Kvbc.VersionedSpec
import Verif.Kvbc.VersionedLemmas
import Verif.Kvbc.VersionedInv
import Verif.Kvbc.VersionedProps
import Verif.Kvbc.VersionedMore
import Verif.Kvbc.KeyOrder
import Verif.Kvbc.VersionedExamples
import Verif.Kvbc.Merkle
import Verif.Kvbc.MerkleSpec
import Verif.Kvbc.MerkleKeys
import Verif.Kvbc.MerkleSim
import Verif.Kvbc.MerkleProps
import Verif.Kvbc.MerkleUndo
import Verif.Kvbc.MerkleExamples
import Verif.Kvbc.Immutable
import Verif.Kvbc.ImmutableProps
import Verif.Cmf.Model
import Verif.Cmf.Props
import Verif.Cmf.Safe
import Verif.Cmf.Theorems
import Verif.Chain.Model
import Verif.Chain.Binding
import Verif.Chain.Rebuild
import Verif.Chain.Inv
import Verif.Chain.Spec
import Verif.Chain.Theorems
import Verif.Chain.Examples
import Verif.Chain.Transfer
import Verif.Chain.TransferProps
import Verif.Chain.TransferExamples
import Verif.PreExec.Model
import Verif.PreExec.Lemmas
import Verif.PreExec.Props
import Verif.PreExec.Sigs
import Verif.PreExec.Examples
import Verif.Trs.Buffer
import Verif.Trs.Blocks
import Verif.Trs.BlocksProps
import Verif.Trs.BlocksExamples
import Verif.Trs.EgTables
import Verif.Trs.EgRead
import Verif.Trs.EgStream
import Verif.Trs.EgExamples
import Verif.Trc.Hash
import Verif.Trc.Client
import Verif.Trc.ClientLemmas
import Verif.Trc.ClientProps
import Verif.Trc.ClientLive
import Verif.Trc.ClientExamples
import Verif.Trc.ClientAgree
import Verif.Rvt.Model
import Verif.Rvt.Ops
import Verif.Rvt.Canon
import Verif.Rvt.Add
import Verif.Rvt.AddLeaf
import Verif.Rvt.Remove
import Verif.Rvt.RemoveLeaf
import Verif.Rvt.Shrink
import Verif.Rvt.RemoveAll
import Verif.Rvt.Spec
import Verif.Rvt.Api
import Verif.Rvt.Theorems
import Verif.Rvt.Examples
import Verif.Meta.Model
import Verif.Meta.Spec
import Verif.Meta.Codec
import Verif.Meta.Keys
import Verif.Meta.Reads
import Verif.Meta.Sets
import Verif.Meta.Sets2
import Verif.Meta.Sets3
import Verif.Meta.Boot
import Verif.Meta.Sim
import Verif.Meta.Theorems
import Verif.Meta.Corollaries
import Verif.Meta.Findings
import Verif.Meta.Examples
import Verif.St.Examples
import Verif.V4.Examples
import Verif.Rsi.Theorems
import Verif.Req.Model
import Verif.Req.Basic
import Verif.Req.Theorems
import Verif.Req.Batch
import Verif.Req.Batch2
import Verif.Req.Findings
import Verif.Keys.Model
import Verif.Keys.Spec
import Verif.Keys.Codec
import Verif.Keys.Mgr
import Verif.Keys.Basic
import Verif.Keys.Theorems
import Verif.Keys.Own
import Verif.Keys.Findings
import Verif.Rp.OMap
import Verif.Rp.Model
import Verif.Rp.Mem
import Verif.Rp.Keys
import Verif.Rp.Spec
import Verif.Rp.Sync
import Verif.Rp.Old
import Verif.Rp.Inv
import Verif.Rp.Start
import Verif.Rp.Install
import Verif.Rp.Serve
import Verif.Rp.Theorems
import Verif.Rp.Chunks
import Verif.Rp.Source
import Verif.Rp.Examples
import Verif.Ckpt.Examples
import Verif.Reconf.PruneExamples
import Verif.Reconf.AuthExamples
import Verif.Reconf.WedgeExamples
import Verif.Leave.Examples
import Verif.Batch.Examples
import Verif.Wire.Examples
import Verif.Wire.RestartExamples
import Verif.Wire.StatusExamples
import Verif.Timers.Examples
import Verif.Inbox.Examples
import Verif.SeqGen.Model
import Verif.SeqGen.Theorems
import Verif.SeqGen.Examples
import Verif.Layout.Model
import Verif.Layout.Spec
import Verif.Layout.Theorems
import Verif.Layout.Examples
import Verif.Source.Examples
import Verif.Ticks.Examples
import Verif.Handoff.Examples
import Verif.Pool.Examples
