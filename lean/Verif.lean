import Verif.Common.Basic
import Verif.Common.UMap
import Verif.StakingPool.Model
import Verif.StakingPool.Arith
import Verif.StakingPool.World
import Verif.StakingPool.Lemmas
import Verif.StakingPool.Cases
import Verif.StakingPool.Invariant
import Verif.StakingPool.CallFacts
import Verif.StakingPool.WorldInv
import Verif.StakingPool.Totality
import Verif.StakingPool.Demo
import Verif.StakingPool.Props1
import Verif.StakingPool.Props2
import Verif.StakingPool.History
import Verif.StakingPool.Props3
import Verif.StakingPool.Props4
import Verif.StakingPool.Split
import Verif.StakingPool.Props5
import Verif.StakingPool.Props6
import Verif.StakingPool.Props7
import Verif.StakingPool.Slash
import Verif.StakingPool.Props8
import Verif.Lockup.Model
import Verif.Lockup.World
import Verif.Lockup.Arith
import Verif.Lockup.Cases
import Verif.Lockup.Pend
import Verif.Lockup.Invariant
import Verif.Lockup.Locked
import Verif.Lockup.Coverage
import Verif.Lockup.WorldInv
import Verif.Lockup.History
import Verif.Lockup.Spec
import Verif.Lockup.Demo
import Verif.Lockup.Live
import Verif.Lockup.Hash
import Verif.Lockup.Props1
import Verif.Lockup.Props2
import Verif.Lockup.Props3
import Verif.Lockup.Props4
import Verif.Lockup.Props5
import Verif.Common.Book
import Verif.Common.Perm
import Verif.Multisig.Model
import Verif.Multisig.World
import Verif.Multisig.Lemmas
import Verif.Multisig.History
import Verif.Multisig.Trace
import Verif.Multisig.Demo
import Verif.Multisig.Props
import Verif.Multisig.Keys
import Verif.Multisig.Props2
import Verif.Multisig.Props3
import Verif.Multisig.KeySource
import Verif.Multisig.Props4
import Verif.Multisig.Props5
import Verif.Multisig.Props6
import Verif.Multisig.Purse
import Verif.Multisig.Props7
import Verif.Multisig.Props8
import Verif.Multisig2.Model
import Verif.Multisig2.World
import Verif.Multisig2.Lemmas
import Verif.Multisig2.History
import Verif.Multisig2.Trace
import Verif.Multisig2.Demo
import Verif.Multisig2.Props
import Verif.Multisig2.Threshold
import Verif.Multisig2.Props2
import Verif.Multisig2.Props3
import Verif.Multisig2.Keys
import Verif.Multisig2.KeySync
import Verif.Multisig2.Props4
import Verif.Multisig2.Props5
import Verif.Multisig2.Founders
import Verif.Multisig2.Props6
import Verif.Multisig2.Purse
import Verif.Multisig2.Props7
import Verif.Common.Since
import Verif.Voting.Model
import Verif.Voting.World
import Verif.Voting.Lemmas
import Verif.Voting.Props
import Verif.Voting.Props2
import Verif.Whitelist.Model
import Verif.Whitelist.Props
import Verif.Factory.Runtime
import Verif.Factory.AccountIds
import Verif.Factory.Pool
import Verif.Factory.PoolLemmas
import Verif.Factory.PoolProps
import Verif.Factory.PoolProps2
import Verif.Factory.PoolLife
import Verif.Factory.LockupF
import Verif.Factory.LockupLemmas
import Verif.Factory.LockupProps
import Verif.Factory.LockupLife
import Verif.Factory.MultisigF
import Verif.Factory.MultisigProps
import Verif.Factory.MultisigKeys
import Verif.Factory.MultisigLife
import Verif.Factory.MultisigPurse
import Verif.WNear.Model
import Verif.WNear.Lemmas
import Verif.WNear.Props
import Verif.WNear.Props2
import Verif.WNear.Props3
import Verif.WNear.Props4
import Verif.StateManip.Model
import Verif.StateManip.Props
import Verif.Init
import Verif.Lockup.Target
import Verif.System.Model
import Verif.System.Sim
import Verif.System.Demo
import Verif.System.Selected
import Verif.System.Props
import Verif.System.Stuck
import Verif.System.Props2
import Verif.System.Recover
import Verif.System.Calm
import Verif.StakingPool.Leave
import Verif.System.Stages
import Verif.System.Props3
import Verif.System.Joint
import Verif.System.JointSim
import Verif.System.Props4
import Verif.System.Props5
import Verif.StakingPool.Props9
import Verif.StakingPool.Compound
import Verif.StakingPool.Props10
import Verif.StakingPool.Profit
import Verif.StakingPool.Props11
import Verif.StakingPool.Unlock
import Verif.StakingPool.Prompt
import Verif.StakingPool.Props12
import Verif.Lockup.Props6
import Verif.System.Gas
import Verif.System.Props6
import Verif.System.Ops
import Verif.System.Props7
import Verif.System.Props8
import Verif.System.Votes
import Verif.System.VotesSim
import Verif.System.Props9
import Verif.System.Rewards
import Verif.System.Props10
import Verif.System.Prompt
import Verif.System.Props11
import Verif.Wallet.Model
import Verif.Wallet.Sim
import Verif.Wallet.Lockup
import Verif.Wallet.Live
import Verif.Wallet.Props
