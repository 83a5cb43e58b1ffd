import Verif.Lemmas.AMap
import Verif.Lemmas.ActorInv
import Verif.Lemmas.ActorMaps
import Verif.Lemmas.ActorSteps
import Verif.Lemmas.Aggregation
import Verif.Lemmas.Backend
import Verif.Lemmas.Bits
import Verif.Lemmas.Bounds
import Verif.Lemmas.Buffers
import Verif.Lemmas.Builder
import Verif.Lemmas.ClockFrame
import Verif.Lemmas.Coverage
import Verif.Lemmas.Dashboard
import Verif.Lemmas.Db
import Verif.Lemmas.DbBlocks
import Verif.Lemmas.DbIndex
import Verif.Lemmas.Delivery
import Verif.Lemmas.Discard
import Verif.Lemmas.Dup
import Verif.Lemmas.DutyRun
import Verif.Lemmas.EventBus
import Verif.Lemmas.FleetHear
import Verif.Lemmas.FleetRun
import Verif.Lemmas.FleetSlot
import Verif.Lemmas.ForkChoice
import Verif.Lemmas.ForkTree
import Verif.Lemmas.GenesisFile
import Verif.Lemmas.Gossip
import Verif.Lemmas.Headers
import Verif.Lemmas.Held
import Verif.Lemmas.HeldBuffers
import Verif.Lemmas.JobOrder
import Verif.Lemmas.Jobs
import Verif.Lemmas.Keyed
import Verif.Lemmas.LateRun
import Verif.Lemmas.Line
import Verif.Lemmas.Links
import Verif.Lemmas.Merkle
import Verif.Lemmas.Neighbours
import Verif.Lemmas.Networks
import Verif.Lemmas.NoPrune
import Verif.Lemmas.OneGroup
import Verif.Lemmas.P2p
import Verif.Lemmas.P2pPeers
import Verif.Lemmas.P2pRange
import Verif.Lemmas.P2pRoot
import Verif.Lemmas.P2pRun
import Verif.Lemmas.PaceFacts
import Verif.Lemmas.PaceProgress
import Verif.Lemmas.PaceRun
import Verif.Lemmas.Projection
import Verif.Lemmas.Race
import Verif.Lemmas.Retained
import Verif.Lemmas.RunSim
import Verif.Lemmas.SRun
import Verif.Lemmas.Served
import Verif.Lemmas.SessionCount
import Verif.Lemmas.SessionRun
import Verif.Lemmas.SessionSound
import Verif.Lemmas.SoloImport
import Verif.Lemmas.SoloPost
import Verif.Lemmas.SoloPropose
import Verif.Lemmas.SoloRun
import Verif.Lemmas.SoloSession
import Verif.Lemmas.SoloSlot
import Verif.Lemmas.SoloTick
import Verif.Lemmas.SoloTicks
import Verif.Lemmas.SoloVote
import Verif.Lemmas.Ssz
import Verif.Lemmas.SszLayout
import Verif.Lemmas.SszTypes
import Verif.Lemmas.StateDiff
import Verif.Lemmas.StfChain
import Verif.Lemmas.StfFrame
import Verif.Lemmas.StfLoop
import Verif.Lemmas.StfState
import Verif.Lemmas.StoreAnchor
import Verif.Lemmas.StoreFrame
import Verif.Lemmas.StoreImport
import Verif.Lemmas.StoreInv
import Verif.Lemmas.StoreSteps
import Verif.Lemmas.StoreTree
import Verif.Lemmas.Stored
import Verif.Lemmas.SwarmTask
import Verif.Lemmas.Tally
import Verif.Lemmas.Track
import Verif.Lemmas.TrackGossip
import Verif.Lemmas.TrackImport
import Verif.Lemmas.TrackJobs
import Verif.Lemmas.TrackPost
import Verif.Lemmas.TrackPropose
import Verif.Lemmas.TrackRun
import Verif.Lemmas.TrackSession
import Verif.Lemmas.TrackSign
import Verif.Lemmas.TrackSlot
import Verif.Lemmas.TrackTick
import Verif.Lemmas.TrackVote
import Verif.Lemmas.Verified
import Verif.Lemmas.Wire
import Verif.Model.AMap
import Verif.Model.Actor
import Verif.Model.Aggregation
import Verif.Model.Backend
import Verif.Model.Beeswarm
import Verif.Model.Bits
import Verif.Model.BlockBuilder
import Verif.Model.Buffers
import Verif.Model.CheckpointSync
import Verif.Model.Clock
import Verif.Model.Control
import Verif.Model.Coverage
import Verif.Model.Crash
import Verif.Model.Dashboard
import Verif.Model.Db
import Verif.Model.Duties
import Verif.Model.EventBus
import Verif.Model.Events
import Verif.Model.ForkChoice
import Verif.Model.ForkTree
import Verif.Model.GenesisFile
import Verif.Model.Gossip
import Verif.Model.Greedy
import Verif.Model.Justifiable
import Verif.Model.JustifiedSlots
import Verif.Model.KeyFiles
import Verif.Model.Keys
import Verif.Model.Machine
import Verif.Model.Merkle
import Verif.Model.Monitor
import Verif.Model.P2p
import Verif.Model.Propagation
import Verif.Model.Propose
import Verif.Model.Prove
import Verif.Model.Race
import Verif.Model.Reaggregate
import Verif.Model.Redial
import Verif.Model.Roles
import Verif.Model.Rpc
import Verif.Model.Serve
import Verif.Model.Session
import Verif.Model.Signatures
import Verif.Model.Ssz
import Verif.Model.Startup
import Verif.Model.StateDiff
import Verif.Model.StateTransition
import Verif.Model.Store
import Verif.Model.SwarmTask
import Verif.Model.SyncStatus
import Verif.Model.Types
import Verif.Model.Votes
import Verif.Model.Wire
import Verif.Model.Worker
import Verif.Props.C01_Justifiable
import Verif.Props.C02_JustifiedSlots
import Verif.Props.C03_History
import Verif.Props.C04_SlotJump
import Verif.Props.C05_C08_Checkpoints
import Verif.Props.C09_SupermajorityLink
import Verif.Props.C100_EventStream
import Verif.Props.C101_Offline
import Verif.Props.C102_Late
import Verif.Props.C103_Consistent
import Verif.Props.C104_Recovery
import Verif.Props.C105_Monitor
import Verif.Props.C106_Monitor
import Verif.Props.C107_Words
import Verif.Props.C108_Backfill
import Verif.Props.C109_Served
import Verif.Props.C10_NoPanic
import Verif.Props.C110_Join
import Verif.Props.C111_Race
import Verif.Props.C112_ForkTree
import Verif.Props.C113_Recent
import Verif.Props.C114_Jobs
import Verif.Props.C115_Coverage
import Verif.Props.C116_Control
import Verif.Props.C117_Redial
import Verif.Props.C118_Ssz
import Verif.Props.C119_Roots
import Verif.Props.C11_MapOrder
import Verif.Props.C120_Networks
import Verif.Props.C121_SwarmTask
import Verif.Props.C122_Dashboard
import Verif.Props.C123_Propagation
import Verif.Props.C124_Beeswarm
import Verif.Props.C12_Votes
import Verif.Props.C13_Proposer
import Verif.Props.C14_C17_ForkChoice
import Verif.Props.C18_C19_Votes
import Verif.Props.C20_C21_Payloads
import Verif.Props.C22_GossipPool
import Verif.Props.C23_C25_C31_Backend
import Verif.Props.C26_StateDiff
import Verif.Props.C27_States
import Verif.Props.C28_Index
import Verif.Props.C29_Blocks
import Verif.Props.C30_Crash
import Verif.Props.C32_Ticks
import Verif.Props.C33_Import
import Verif.Props.C34_C35_C61_Checkpoints
import Verif.Props.C34_C62_Actor
import Verif.Props.C36_Validation
import Verif.Props.C37_C62_Target
import Verif.Props.C38_Reorg
import Verif.Props.C39_Delivery
import Verif.Props.C40_Discard
import Verif.Props.C41_Time
import Verif.Props.C42_SyncStatus
import Verif.Props.C43_Build
import Verif.Props.C44_Compact
import Verif.Props.C45_Greedy
import Verif.Props.C46_Aggregation
import Verif.Props.C47_EarlyTrigger
import Verif.Props.C48_Fetch
import Verif.Props.C50_RangeSync
import Verif.Props.C51_Varint
import Verif.Props.C52_MessageId
import Verif.Props.C53_Serve
import Verif.Props.C54_CheckpointState
import Verif.Props.C55_AnchorFetch
import Verif.Props.C56_Events
import Verif.Props.C57_BitsSubset
import Verif.Props.C59_NoPanic
import Verif.Props.C60_BlockPanic
import Verif.Props.C63_Duties
import Verif.Props.C64_Counted
import Verif.Props.C65_Priority
import Verif.Props.C66_Wire
import Verif.Props.C67_Topics
import Verif.Props.C72_Forward
import Verif.Props.C73_Rotation
import Verif.Props.C74_Records
import Verif.Props.C75_Sync
import Verif.Props.C76_Nodes
import Verif.Props.C76_Safety
import Verif.Props.C77_Requests
import Verif.Props.C78_Signatures
import Verif.Props.C79_Signed
import Verif.Props.C80_OwnBlock
import Verif.Props.C81_Reaggregate
import Verif.Props.C82_Counted
import Verif.Props.C83_PoolValid
import Verif.Props.C84_Always
import Verif.Props.C84_OwnProposal
import Verif.Props.C85_PlausibleLiveness
import Verif.Props.C86_Extend
import Verif.Props.C87_NothingWasted
import Verif.Props.C88_Duties
import Verif.Props.C89_Peers
import Verif.Props.C90_Rpc
import Verif.Props.C91_Startup
import Verif.Props.C92_Resync
import Verif.Props.C94_Solo
import Verif.Props.C95_Collect
import Verif.Props.C96_Keys
import Verif.Props.C97_KeyFiles
import Verif.Props.C98_Fleet
import Verif.Props.C99_Session
import Verif.Spec.Actor
import Verif.Spec.Chain
import Verif.Spec.Coverage
import Verif.Spec.Crash
import Verif.Spec.Dashboard
import Verif.Spec.Db
import Verif.Spec.DbWitness
import Verif.Spec.Delivery
import Verif.Spec.EventBus
import Verif.Spec.Fleet
import Verif.Spec.ForkTree
import Verif.Spec.GenesisFile
import Verif.Spec.Headers
import Verif.Spec.Late
import Verif.Spec.Merkle
import Verif.Spec.P2p
import Verif.Spec.Pace
import Verif.Spec.Pools
import Verif.Spec.Propagation
import Verif.Spec.Race
import Verif.Spec.Reaggregate
import Verif.Spec.Requests
import Verif.Spec.Safety
import Verif.Spec.Session
import Verif.Spec.Signatures
import Verif.Spec.Solo
import Verif.Spec.Ssz
import Verif.Spec.Store
import Verif.Spec.StoreWitness
import Verif.Spec.SwarmTask
import Verif.Spec.Switched
import Verif.Spec.Tree
import Verif.Spec.Wire
import Verif.Spec.WireWitness
import Verif.Spec.Witness
