import Verif.Lemmas.Alloc
import Verif.Lemmas.AllocDecode
import Verif.Lemmas.Auditor
import Verif.Lemmas.AuditorExec
import Verif.Lemmas.AuditorState
import Verif.Lemmas.Budget
import Verif.Lemmas.ChangeMade
import Verif.Lemmas.ClientAbsent
import Verif.Lemmas.ClientFinish
import Verif.Lemmas.ClientOps
import Verif.Lemmas.ClientReceives
import Verif.Lemmas.ClientRun
import Verif.Lemmas.ClientSearch
import Verif.Lemmas.ClientSound
import Verif.Lemmas.ClientState
import Verif.Lemmas.ClientTracker
import Verif.Lemmas.ClientVersions
import Verif.Lemmas.Codec
import Verif.Lemmas.Complete
import Verif.Lemmas.ContactState
import Verif.Lemmas.CopathLen
import Verif.Lemmas.Crash
import Verif.Lemmas.Cutoff
import Verif.Lemmas.Distinguished
import Verif.Lemmas.Faults
import Verif.Lemmas.Fresh
import Verif.Lemmas.HeapMonitor
import Verif.Lemmas.HeapSim
import Verif.Lemmas.HeapUpdate
import Verif.Lemmas.InitSound
import Verif.Lemmas.Isolated
import Verif.Lemmas.IsolatedAhead
import Verif.Lemmas.IsolatedOps
import Verif.Lemmas.IsolatedStore
import Verif.Lemmas.Ladder
import Verif.Lemmas.LadderSteps
import Verif.Lemmas.Log
import Verif.Lemmas.LogAppend
import Verif.Lemmas.LogChunk
import Verif.Lemmas.LogComplete
import Verif.Lemmas.LogEval
import Verif.Lemmas.LogMath
import Verif.Lemmas.LogMath64
import Verif.Lemmas.LogSame
import Verif.Lemmas.LogSound
import Verif.Lemmas.LogSpine
import Verif.Lemmas.LogStore
import Verif.Lemmas.Monitor
import Verif.Lemmas.MonitorCount
import Verif.Lemmas.MonitorSound
import Verif.Lemmas.NoCatch
import Verif.Lemmas.NoFault
import Verif.Lemmas.OneAnswer
import Verif.Lemmas.Owner
import Verif.Lemmas.OwnerFresh
import Verif.Lemmas.OwnerUpdate
import Verif.Lemmas.PrefixAudit
import Verif.Lemmas.PrefixBits
import Verif.Lemmas.PrefixExact
import Verif.Lemmas.PrefixHeap
import Verif.Lemmas.PrefixHeapAnswer
import Verif.Lemmas.PrefixHeapExpand
import Verif.Lemmas.PrefixHeapMain
import Verif.Lemmas.PrefixHeapSearch
import Verif.Lemmas.PrefixHeapStep
import Verif.Lemmas.PrefixHistory
import Verif.Lemmas.PrefixKeeps
import Verif.Lemmas.PrefixMutate
import Verif.Lemmas.PrefixProof
import Verif.Lemmas.PrefixSized
import Verif.Lemmas.PrefixSound
import Verif.Lemmas.PrefixStore
import Verif.Lemmas.PrefixStuck
import Verif.Lemmas.PrefixTile
import Verif.Lemmas.PrefixTrie
import Verif.Lemmas.Provider
import Verif.Lemmas.Public
import Verif.Lemmas.ReceiveClient
import Verif.Lemmas.ReceiveLog
import Verif.Lemmas.ReceiveMonitor
import Verif.Lemmas.ReceiveNew
import Verif.Lemmas.ReceiveRun
import Verif.Lemmas.ReceiveSearch
import Verif.Lemmas.ReceiveUpdate
import Verif.Lemmas.Schedule
import Verif.Lemmas.Search
import Verif.Lemmas.SearchTree
import Verif.Lemmas.SendMonitor
import Verif.Lemmas.SendOwner
import Verif.Lemmas.SendSearch
import Verif.Lemmas.SendSizes
import Verif.Lemmas.Sendable
import Verif.Lemmas.Serve
import Verif.Lemmas.ServeCalm
import Verif.Lemmas.ServeCover
import Verif.Lemmas.ServeExchange
import Verif.Lemmas.ServeFinal
import Verif.Lemmas.ServeInit
import Verif.Lemmas.ServeLabel
import Verif.Lemmas.ServeLadder
import Verif.Lemmas.ServeMonitor
import Verif.Lemmas.ServeOnly
import Verif.Lemmas.ServeSafe
import Verif.Lemmas.ServeSearch
import Verif.Lemmas.ServerAudit
import Verif.Lemmas.ServerBatch
import Verif.Lemmas.ServerLabel
import Verif.Lemmas.ServerRuns
import Verif.Lemmas.ServerStep
import Verif.Lemmas.ServerTime
import Verif.Lemmas.ServerVersions
import Verif.Lemmas.Simulate
import Verif.Lemmas.Sizes
import Verif.Lemmas.Spent
import Verif.Lemmas.Spine
import Verif.Lemmas.Stays
import Verif.Lemmas.Stops
import Verif.Lemmas.StopsServe
import Verif.Lemmas.StopsWalk
import Verif.Lemmas.Structs
import Verif.Lemmas.TornLog
import Verif.Lemmas.Trace
import Verif.Lemmas.Truncation
import Verif.Lemmas.UpdateProc
import Verif.Lemmas.UpdateSound
import Verif.Lemmas.Uvarint
import Verif.Model.Algorithms
import Verif.Model.Alloc
import Verif.Model.Auditor
import Verif.Model.Basic
import Verif.Model.Client
import Verif.Model.CmdRoutes
import Verif.Model.CmdServer
import Verif.Model.Codec
import Verif.Model.Commitment
import Verif.Model.Config
import Verif.Model.DB
import Verif.Model.GenerateKeys
import Verif.Model.Handles
import Verif.Model.Ladder
import Verif.Model.Log
import Verif.Model.LogMath
import Verif.Model.LogMath64
import Verif.Model.LogStore
import Verif.Model.Managed
import Verif.Model.Memory
import Verif.Model.MonitorHeap
import Verif.Model.Nonce
import Verif.Model.Prefix
import Verif.Model.PrefixHeap
import Verif.Model.Prog
import Verif.Model.Provider
import Verif.Model.SearchTree
import Verif.Model.Server
import Verif.Model.ServerOps
import Verif.Model.State
import Verif.Model.Structs
import Verif.Model.Suites
import Verif.Model.UpdateProc
import Verif.Model.Uvarint
import Verif.Model.VRF
import Verif.Props.C01_LogMath
import Verif.Props.C02_LogAppend
import Verif.Props.C03_C04_LogStore
import Verif.Props.C05_C06_LogSound
import Verif.Props.C07_C09_Prefix
import Verif.Props.C100_VRFStrings
import Verif.Props.C101_GenerateKeys
import Verif.Props.C102_Fresh
import Verif.Props.C103_OwnerLearns
import Verif.Props.C104_OwnersValue
import Verif.Props.C105_OwnersAgree
import Verif.Props.C106_NotBehindOwner
import Verif.Props.C10_C13_PrefixSound
import Verif.Props.C12_Exact
import Verif.Props.C14_C15_PrefixTiles
import Verif.Props.C16_C18_SearchTree
import Verif.Props.C17_Answered
import Verif.Props.C17_Requests
import Verif.Props.C19_C22_Ladder
import Verif.Props.C23_C25_Distinguished
import Verif.Props.C26_C27_Search
import Verif.Props.C28_Timestamps
import Verif.Props.C29_ContactMonitor
import Verif.Props.C30_OwnerMonitor
import Verif.Props.C31_Accepts
import Verif.Props.C31_C35_Auditor
import Verif.Props.C31_Exact
import Verif.Props.C34_Exact
import Verif.Props.C34_HonestAudit
import Verif.Props.C35_Sendable
import Verif.Props.C36_Server
import Verif.Props.C37_C40_Database
import Verif.Props.C41_Managed
import Verif.Props.C42_C45_Client
import Verif.Props.C44_C45_Heads
import Verif.Props.C46_C47_Wire
import Verif.Props.C46_Truncation
import Verif.Props.C48_Injective
import Verif.Props.C49_PrefixWire
import Verif.Props.C50_C52_Crypto
import Verif.Props.C53_Config
import Verif.Props.C54_Collected
import Verif.Props.C54_Update
import Verif.Props.C56_OwnerUpdate
import Verif.Props.C57_Restarts
import Verif.Props.C59_StoredState
import Verif.Props.C60_SearchSound
import Verif.Props.C62_Served
import Verif.Props.C63_Absent
import Verif.Props.C64_Absence
import Verif.Props.C65_MonitoringMap
import Verif.Props.C67_Monitored
import Verif.Props.C68_Signed
import Verif.Props.C69_MonitorSound
import Verif.Props.C71_SearchAgain
import Verif.Props.C72_InitSound
import Verif.Props.C73_UpdateSound
import Verif.Props.C75_Initialized
import Verif.Props.C76_Removed
import Verif.Props.C77_Keys
import Verif.Props.C79_OneAnswer
import Verif.Props.C80_Isolated
import Verif.Props.C81_UpdateStream
import Verif.Props.C82_Crash
import Verif.Props.C83_MonitorMemory
import Verif.Props.C84_Monitor
import Verif.Props.C84_MonitorSent
import Verif.Props.C84_Sendable
import Verif.Props.C85_Changes
import Verif.Props.C86_OtherLabels
import Verif.Props.C87_NewClient
import Verif.Props.C87_Receive
import Verif.Props.C88_Memory
import Verif.Props.C89_Manager
import Verif.Props.C90_Alloc
import Verif.Props.C91_Batch
import Verif.Props.C92_Nonce
import Verif.Props.C93_Schedule
import Verif.Props.C94_Inserter
import Verif.Props.C95_Audited
import Verif.Props.C96_Metrics
import Verif.Props.C97_OneValue
import Verif.Props.C98_Listed
import Verif.Props.LogMath64
import Verif.Props.ServerExample
import Verif.Props.ServerExample2
import Verif.Spec.Acceptable
import Verif.Spec.Auditor
import Verif.Spec.Client
import Verif.Spec.ClientWire
import Verif.Spec.Codec
import Verif.Spec.Collision
import Verif.Spec.Committed
import Verif.Spec.ContactMap
import Verif.Spec.Crash
import Verif.Spec.DB
import Verif.Spec.Distinguished
import Verif.Spec.Fits
import Verif.Spec.HonestLog
import Verif.Spec.Initialized
import Verif.Spec.Isolated
import Verif.Spec.LogTree
import Verif.Spec.Managed
import Verif.Spec.Memory
import Verif.Spec.Monitor
import Verif.Spec.MonitorHeap
import Verif.Spec.Monitored
import Verif.Spec.Nonce
import Verif.Spec.Owner
import Verif.Spec.Prefix
import Verif.Spec.PrefixHistory
import Verif.Spec.Receive
import Verif.Spec.Schedule
import Verif.Spec.Search
import Verif.Spec.SearchTree
import Verif.Spec.Served
import Verif.Spec.Server
import Verif.Spec.Trace
import Verif.Spec.VRF
