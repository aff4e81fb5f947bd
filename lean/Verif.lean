import Verif.Model.Basic
import Verif.Model.Avn
import Verif.Lemmas.Avn
import Verif.Props.Avn
import Verif.Props.Encoding
import Verif.Props.TokenManager
import Verif.Props.TokenManagerLower
import Verif.Props.TokenLive
import Verif.Props.EthBridgeEvents
import Verif.Props.EthBridgeTx
import Verif.Props.Summary
import Verif.Props.SummaryOffence
import Verif.Props.EthereumEvents
import Verif.Props.Merkle
import Verif.Props.Offence
import Verif.Props.ProxyCalls
import Verif.Props.Proxy
import Verif.Props.ProxyLive
import Verif.Props.Anchor
import Verif.Props.AnchorLive
import Verif.Props.Fees
import Verif.Props.Nft
import Verif.Props.EventParsing
import Verif.Props.EventsClient
import Verif.Props.Validators
import Verif.Props.StakingSet
import Verif.Props.Staking
import Verif.Props.StakingUnbond
import Verif.Props.StakingLive
import Verif.Props.StakingLiveAll
import Verif.Props.EthKey
import Verif.Props.ValidatorsLive
import Verif.Props.AuthorsLive
import Verif.Props.BridgeLive
import Verif.Props.BridgeEventsLive
import Verif.Props.SummaryLive
import Verif.Props.EthereumEventsLive
import Verif.Props.StakingSplit
import Verif.Props.StakingCover
import Verif.Props.StakingEra
import Verif.Props.StakingPayout
import Verif.Props.StakingPayoutCases
import Verif.Props.EthBridgeApply
import Verif.Props.Signature
import Verif.Props.EthBridgeSetup
import Verif.Props.NftIds
import Verif.Props.NftLive
import Verif.Props.EventsClientBlocks
import Verif.Props.ValidatorsSession
import Verif.Props.StakingGrowth
import Verif.Model.Eip712
import Verif.Props.Eip712
import Verif.Model.Calldata
import Verif.Props.Calldata
import Verif.Model.AuthorPayloads
import Verif.Props.AuthorPayloads
import Verif.Model.BridgeWorker
import Verif.Props.BridgeWorker
import Verif.Props.Authors
import Verif.Props.Deposits
import Verif.Props.EventCheck
import Verif.Props.EventWorker
import Verif.Props.EventLiveness
import Verif.Model.SummaryWorker
import Verif.Lemmas.SummaryWorker
import Verif.Props.SummaryWorker
import Verif.Props.SummaryLiveness
import Verif.Props.EventCheckText
import Verif.Model.DiscoveryWorker
import Verif.Lemmas.DiscoveryPallet
import Verif.Lemmas.DiscoveryClient
import Verif.Props.Discovery
import Verif.Model.Connections
import Verif.Props.Connections
import Verif.Props.DiscoveryComplete
import Verif.Lemmas.DiscoveryVotes
import Verif.Props.DiscoveryLiveness
import Verif.Model.EndToEnd
import Verif.Lemmas.EndToEnd
import Verif.Props.EndToEnd
import Verif.Model.LowerFlow
import Verif.Lemmas.LowerFlow
import Verif.Lemmas.LowerFlow2
import Verif.Props.LowerFlow
import Verif.Props.LowerFlowProof
import Verif.Props.LowerFlowCases
import Verif.Props.LowerLive
import Verif.Model.Service
import Verif.Props.Service
import Verif.Props.Migration
import Verif.Model.BridgeOffence
import Verif.Model.Membership
import Verif.Props.BridgeOffence
import Verif.Props.BridgeOffenceEvents
import Verif.Props.BridgeOffenceChain
import Verif.Lemmas.Membership
import Verif.Lemmas.Membership2
import Verif.Lemmas.Membership3
import Verif.Lemmas.Membership4
import Verif.Lemmas.Membership5
import Verif.Lemmas.Membership6
import Verif.Props.Membership
import Verif.Props.MembershipSession
import Verif.Props.MembershipJoin
import Verif.Props.MembershipBridge
import Verif.Model.TwoBridges
import Verif.Lemmas.TwoBridges
import Verif.Props.TwoBridges
import Verif.Model.Pool
import Verif.Props.Pool
import Verif.Props.Replay
import Verif.Props.ReplayEvents
import Verif.Props.ReplayBridge
import Verif.Props.ReplayVotes
import Verif.Model.Ledger
import Verif.Props.LedgerSpec
import Verif.Lemmas.Ledger
import Verif.Props.Ledger
import Verif.Model.Xcm
import Verif.Model.Price
import Verif.Model.OffenceBook
import Verif.Model.Authority
import Verif.Model.LeafQuery
import Verif.Props.Xcm
import Verif.Props.Price
import Verif.Props.OffenceBook
import Verif.Props.OffenceBookBridge
import Verif.Props.Authority
import Verif.Props.LeafQuery
import Verif.Props.Governed
import Verif.Props.StakingDueLive
import Verif.Props.StakingUnbondLive
import Verif.Props.StakingSplitLive
import Verif.Props.FeesLive
