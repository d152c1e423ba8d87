import Verif.Basic.Run
import Verif.Basic.SortedSet
import Verif.Basic.BMap
import Verif.Basic.Toy
import Verif.Model.Types
import Verif.Model.Filter
import Verif.Model.FilterJson
import Verif.Spec.FilterJson
import Verif.Spec.Filter
import Verif.Lemmas.Filter
import Verif.Props.Filter
import Verif.Props.FilterJson
import Verif.Props.Data
import Verif.Spec.Version
import Verif.Model.ByCommitment
import Verif.Model.Store
import Verif.Lemmas.ByCommitment
import Verif.Lemmas.Store
import Verif.Lemmas.Slots
import Verif.Lemmas.Steps
import Verif.Lemmas.Lineage
import Verif.Lemmas.Visible
import Verif.Spec.History
import Verif.Props.StoreReads
import Verif.Props.StoreSlots
import Verif.Spec.Query
import Verif.Lemmas.Gpa
import Verif.Lemmas.Recode
import Verif.Props.StoreQueries
import Verif.Basic.Bytes
import Verif.Model.Bincode
import Verif.Spec.Snapshot
import Verif.Lemmas.Bincode
import Verif.Props.Snapshot
import Verif.Model.Dispatch
import Verif.Props.Dispatch
import Verif.Model.OnDemand
import Verif.Lemmas.OnDemand
import Verif.Spec.OnDemand
import Verif.Lemmas.OnDemandHist
import Verif.Props.OnDemand
import Verif.Model.TokenAccount
import Verif.Spec.Token
import Verif.Lemmas.TokenAccount
import Verif.Props.TokenAccount
import Verif.Basic.AMap
import Verif.Model.Spl
import Verif.Model.TokenUtils
import Verif.Spec.Spl
import Verif.Lemmas.Spl
import Verif.Lemmas.TokenUtils
import Verif.Props.TokenUtils
import Verif.Model.TokenStorage
import Verif.Spec.TokenStorage
import Verif.Lemmas.TokenStorage
import Verif.Props.TokenStorage
import Verif.Model.Processed
import Verif.Model.TokenStore
import Verif.Spec.Processed
import Verif.Spec.TokenStore
import Verif.Lemmas.Processed
import Verif.Lemmas.TokenStore
import Verif.Lemmas.TokenStoreInv
import Verif.Lemmas.TokenStoreRun
import Verif.Lemmas.TokenStoreRead
import Verif.Lemmas.TokenStoreChain
import Verif.Props.TokenStore
import Verif.Spec.TokenHistory
import Verif.Lemmas.TokenStoreHist
import Verif.Props.TokenChain
import Verif.Spec.TokenSafe
import Verif.Lemmas.TokenStoreReady
import Verif.Props.TokenPanics
import Verif.Spec.TokenQuery
import Verif.Lemmas.TokenStoreQuery
import Verif.Lemmas.TokenStoreIndex
import Verif.Props.TokenQuery
import Verif.Model.TokenSnapshot
import Verif.Spec.TokenSnapshot
import Verif.Lemmas.TokenSnapshot
import Verif.Props.TokenSnapshot
import Verif.Model.AppendVec
import Verif.Spec.AppendVec
import Verif.Lemmas.AppendVec
import Verif.Props.AppendVec
import Verif.Model.Rpc
import Verif.Props.Rpc
import Verif.Model.Simulator
import Verif.Spec.Simulator
import Verif.Lemmas.Simulator
import Verif.Lemmas.Parallel
import Verif.Props.Simulator
import Verif.Spec.TokenStream
import Verif.Lemmas.TokenStream
import Verif.Lemmas.TokenStreamFin
import Verif.Props.TokenStream
import Verif.Model.StoreConc
import Verif.Spec.StoreConc
import Verif.Lemmas.StoreConc
import Verif.Lemmas.StoreConcInv
import Verif.Lemmas.StoreConcLog
import Verif.Lemmas.StoreConcSeq
import Verif.Lemmas.StoreConcRun
import Verif.Lemmas.StoreConcCalls
import Verif.Lemmas.StoreConcGpa
import Verif.Lemmas.StoreConcOnce
import Verif.Props.StoreConc
import Verif.Model.TokenConc
import Verif.Spec.TokenConc
import Verif.Lemmas.TokenConc
import Verif.Lemmas.TokenConcFrom
import Verif.Lemmas.TokenConcInv
import Verif.Lemmas.TokenConcServes
import Verif.Lemmas.TokenConcAnswers
import Verif.Lemmas.TokenConcSeq
import Verif.Lemmas.TokenConcRun
import Verif.Props.TokenConc
import Verif.Model.Manifest
import Verif.Spec.Manifest
import Verif.Lemmas.Manifest
import Verif.Props.Manifest
import Verif.Model.OnDemandStore
import Verif.Spec.OnDemandStore
import Verif.Props.OnDemandStore
import Verif.Model.Poison
import Verif.Props.Poison
import Verif.Model.TokenPanic
import Verif.Props.TokenLoss
import Verif.Model.Composed
import Verif.Spec.Composed
import Verif.Lemmas.Composed
import Verif.Props.Composed
import Verif.Model.TokenSnapConc
import Verif.Spec.TokenSnapConc
import Verif.Lemmas.TokenSnapConc
import Verif.Lemmas.TokenSnapConcRun
import Verif.Lemmas.TokenSnapConcPlay
import Verif.Props.TokenSnapConc
import Verif.Model.Program
import Verif.Spec.Program
import Verif.Lemmas.KnownMint
import Verif.Lemmas.ProgramStore
import Verif.Lemmas.ProgramFeed
import Verif.Lemmas.Program
import Verif.Lemmas.ProgramAlive
import Verif.Props.Program
import Verif.Spec.ProgramRead
import Verif.Lemmas.ProgramRead
import Verif.Props.ProgramRead
import Verif.Spec.ProgramQuery
import Verif.Lemmas.ProgramQuery
import Verif.Props.ProgramQuery
import Verif.Lemmas.TokenStoreMint
import Verif.Spec.ProgramMint
import Verif.Lemmas.ProgramMint
import Verif.Props.ProgramMint
import Verif.Spec.ProgramSteady
import Verif.Lemmas.ProgramSteady
import Verif.Props.ProgramSteady
import Verif.Props.AccountEq
import Verif.Spec.ProgramList
import Verif.Lemmas.ProgramList
import Verif.Props.ProgramList
import Verif.Lemmas.TokenStocked
import Verif.Props.TokenSnapshotFits
import Verif.Spec.ProgramSnapshot
import Verif.Props.ProgramSnapshot
import Verif.Spec.Memory
import Verif.Props.StoreMemory
import Verif.Props.TokenMemory
import Verif.Spec.ProgramSteadyAt
import Verif.Props.ProgramSteadyAt
import Verif.Props.OnDemandSnapshot
import Verif.Props.ProgramMintAt
import Verif.Props.ProgramMintsAt
import Verif.Props.StoreChain
import Verif.Lemmas.StoreLate
import Verif.Props.StoreLate
import Verif.Props.StoreChainQuery
import Verif.Tests.ByCommitment
import Verif.Tests.Filters
import Verif.Tests.Except
import Verif.Tests.Store
import Verif.Tests.TokenStore
import Verif.Tests.TokenGpa
import Verif.Tests.Others
import Verif.Spec.StoreListen
import Verif.Props.StoreListen
import Verif.Spec.TokenListen
import Verif.Lemmas.TokenListen
import Verif.Lemmas.TokenListenStep
import Verif.Lemmas.TokenListenRun
import Verif.Props.TokenListen
import Verif.Props.TokenAnswer
import Verif.Spec.ComposedKept
import Verif.Props.ComposedKept
import Verif.Spec.ComposedChain
import Verif.Props.ComposedChain
import Verif.Model.Gauges
import Verif.Spec.Gauges
import Verif.Spec.TokenGauges
import Verif.Lemmas.StoreGauges
import Verif.Lemmas.TokenGauges
import Verif.Lemmas.TokenGaugesCount
import Verif.Props.StoreGauges
import Verif.Props.TokenGauges
import Verif.Spec.StoreConcLin
import Verif.Lemmas.StoreConcSim
import Verif.Lemmas.StoreConcLin
import Verif.Lemmas.StoreConcLinStep
import Verif.Lemmas.StoreConcLinRun
import Verif.Lemmas.StoreConcLinEnd
import Verif.Props.StoreConcLin
import Verif.Spec.StoreConcWait
import Verif.Lemmas.StoreConcRest
import Verif.Lemmas.StoreConcWait
import Verif.Props.StoreConcWait
import Verif.Spec.StoreConcTime
import Verif.Lemmas.StoreConcTime
import Verif.Props.StoreConcTime
import Verif.Spec.StoreConcSettled
import Verif.Lemmas.StoreConcSettled
import Verif.Props.StoreConcSettled
import Verif.Props.TokenConcSettled
import Verif.Spec.TokenConcDue
import Verif.Lemmas.TokenConcDue
import Verif.Props.TokenConcDue
import Verif.Lemmas.TokenConcSteady
import Verif.Props.TokenConcSteady
import Verif.Spec.FilterOrder
import Verif.Lemmas.FilterOrder
import Verif.Props.FilterOrder
import Verif.Lemmas.TokenConcFinal
import Verif.Props.TokenConcFinal
import Verif.Spec.TokenConcOnce
import Verif.Lemmas.TokenConcOnce
import Verif.Props.TokenConcOnce
import Verif.Spec.StoreConcCount
import Verif.Lemmas.StoreConcCount
import Verif.Props.StoreConcCount
import Verif.Spec.StoreConcHeard
import Verif.Lemmas.StoreConcHeard
import Verif.Props.StoreConcHeard
import Verif.Spec.TokenConcTold
import Verif.Lemmas.TokenConcTold
import Verif.Props.TokenConcTold
import Verif.Spec.StoreConcTaken
import Verif.Lemmas.StoreConcTaken
import Verif.Props.StoreConcTaken
import Verif.Spec.StoreConcShards
import Verif.Lemmas.StoreConcShards
import Verif.Props.StoreConcShards
import Verif.Spec.StoreConcMemory
import Verif.Lemmas.StoreConcMemory
import Verif.Props.StoreConcMemory
import Verif.Spec.StoreConcListed
import Verif.Lemmas.StoreConcListed
import Verif.Props.StoreConcListed
import Verif.Spec.TokenConcKeeps
import Verif.Lemmas.TokenConcKeeps
import Verif.Props.TokenConcKeeps
import Verif.Spec.TokenConcMints
import Verif.Lemmas.TokenConcMints
import Verif.Props.TokenConcMints
import Verif.Lemmas.TokenConcMintList
import Verif.Props.TokenConcMintList
import Verif.Spec.TokenConcMultisigs
import Verif.Lemmas.TokenConcMultisigs
import Verif.Props.TokenConcMultisigs
import Verif.Spec.TokenSnapConcKeeps
import Verif.Lemmas.TokenSnapConcKeeps
import Verif.Props.TokenSnapConcKeeps
