# Formal model of near/core-contracts: design

Source of truth: `/repo` (near/core-contracts at the pinned commit), read as text. The model is in
Lean 4 under `lean/Verif`. Every definition that models code cites the file and the lines in `/repo`.
The properties are in `properties.jsonl`, the theorems that prove them in `MANIFEST.json`, the axioms
of each theorem in `AXIOMS.md`, the attempts to break the theorems by wrong programs in
`seeded/LOG.jsonl`.

## 1. Method

* Every contract is a set of small total functions over a state structure. A method has the shape
  `Env → State → args → R (State × effects)` where `R = Except String`. A panic (assert, `expect`,
  `unwrap`, checked arithmetic, host-function error, an argument that does not decode) is
  `Except.error`; the runtime then discards the whole call (state and promises), which the step
  functions model by keeping the old state.
* Integers are `Nat` with *checked* operations (`addU128`, `subU`, `mulU256`, ...). All contracts except
  `state-manipulation` are compiled with `overflow-checks = true`, so an overflow is a panic, and
  `U256::as_u128` panics when the value does not fit.
* Asynchronous effects are explicit: a method returns the promises it creates; a "world" for each
  contract holds the state, the token balances of the account and the receipts in flight. An event list
  (`List Ev`) is one schedule: calls by arbitrary accounts with arbitrary arguments and deposits,
  receipts executed with arbitrary results, callbacks, refunds, rewards, epochs, time. Theorems quantify
  over all event lists, so over all interleavings and all failures of receipts.
* A state is `Reachable` when some history leads to it from a successful `new`. History variables
  (deposits made, tokens paid, answers received, log of calls) never influence a step.
* `Props*` files hold the property theorems, stated with views, calls and observable effects; small
  specification definitions (`Spec`, or in front of the theorem) are independent of the functions of the
  model. Helper lemmas are elsewhere.
* Beside each property theorem an `example` shows a concrete non-trivial instance meeting its
  hypotheses (mostly `decide +kernel` on a concrete world; these are sanity checks of the hypotheses,
  never the proof of a property).
* When a property is false of the code its negation is proved on a concrete reachable witness
  (`..._refuted`), and a weaker positive theorem carries the suffix `_partial`.

## 2. Trusted base

### 2.1 Logic

Lean 4.33.0 kernel. Axioms: at most `propext`, `Classical.choice`, `Quot.sound`; per theorem in
`AXIOMS.md`. No `sorry`, no own axioms, no `native_decide`/`bv_decide`, no `implemented_by`, no
`unsafe`. From Mathlib single modules of basic list/number theory are imported.

### 2.2 What is modelled from the published behaviour of near-sdk and nearcore (not in `/repo`)

* `#[near_bindgen]`: state is loaded before and stored after a call; a method without `#[payable]`
  rejects a deposit (also `#[init]` methods); `#[init]` rejects a second initialization where the
  contract's own assert or the macro does; `#[callback]` arguments panic when the promise failed or
  did not return the right type; `#[private]`/`assert_self` = predecessor is the account itself.
* Collections: `UnorderedMap` = vector of entries with swap-removal, `LookupMap`/`LookupSet` = partial
  map/set, `HashMap`/`HashSet` = map/set (iteration order never influences a result we state).
* Runtime: a failed call is rolled back and its deposit refunded to the predecessor; deposits of created
  promises are debited when the call finishes and need sufficient balance; a batch of actions is atomic;
  a callback runs after its promise, with its result and with the contract as predecessor; an account
  can only create its direct sub-accounts; creating an existing account fails.
* JSON arguments are typed values with the range of their type (`U128`, `U64`, `u32`) checked where it
  matters; account ids and keys are strings, validity is an abstract predicate (the concrete rule of the
  protocol is used for the lockup factory, C54).
* Parameters of the theorems (arbitrary functions): `sha256`, base64 decoding, validity of account ids
  and keys, the validators and stakes of each epoch (voting), the decoding of a method name and
  argument bytes (multisig keys), storage costs (wrapped NEAR).
* Gas: the constants a contract attaches to its promises are modelled for the lockup, its pools and the two
  factories (`System/Gas`, C103); what a method burns is a parameter of each event. Everywhere else a
  receipt may fail for no reason instead.
* Not modelled at all: storage staking outside of what contracts compute themselves (C102 bounds what is
  left for it), logs, Borsh layout except where hashed (C61), contract
  upgrades, the unit tests and scripts of `/repo`, `ft_metadata` of wrapped NEAR.

### 2.3 Contract by contract

| code | model | what is left out or assumed |
|------|-------|------------------------------|
| `staking-pool/src/{lib,internal}.rs` | `StakingPool/Model`, world in `World` | all methods and views. World: no slashing (what a loss does is separate: `StakingPool/Slash`, C95); a stake action moves tokens from liquid to locked and never back by itself, unlocking is a separate event of any size (when it must have happened is a hypothesis of C114 only, from the comment at lib.rs:81-85); rewards only increase the locked balance; the account starts with more than the guarantee fund (with exactly the fund the pool is dead, see 4). Theorems about "always possible" (C04, C05, C07, C17, C59, C114) assume `Bounded`: balances below 2^120 yocto (the supply is about 2^110), epoch below 2^63, at most 10^12 roundings |
| `lockup/src/*.rs` | `Lockup/Model`, `World` | all methods, callbacks and views. In `World` the pool answers arbitrarily; where a theorem needs it, pools are *honest* (`honestPools`: an accepted deposit/withdrawal changes what they hold accordingly, a reported balance is at most what they hold). `System` replaces this by the staking pool model. A full access key added by `add_full_access_key` is recorded (`fullKey`) but not used afterwards: the account itself calls only as callback |
| `voting/src/lib.rs` | `Voting/Model`, `World` | all methods; validators and stakes are an arbitrary function of the epoch |
| `whitelist/src/lib.rs` | `Whitelist/Model` | all methods |
| `multisig/src/lib.rs` | `Multisig/Model`, `World`, `Keys`, `Purse` | all methods. `Keys`: access keys and batches of the account to itself; a batch deploying new code to the account itself is taken as failing; allowances are ignored (they can only forbid more). `Purse`: the tokens of the account, without gas fees and storage staking; a batch the account cannot pay for is refused |
| `multisig2/src/lib.rs` | `Multisig2/Model`, `World`, `Keys`, `Purse` | all methods. `Keys` as for multisig, starting with the batch that `new` sends; `Purse` as for multisig |
| `staking-pool-factory/src/{lib,utils}.rs` | `Factory/Pool` | with whitelist model and `StakingPool.new`; the deposit of a failed batch is back at the factory before the callback runs |
| `lockup-factory/src/{lib,utils}.rs` | `Factory/LockupF` | with `Lockup.new` |
| `multisig-factory/src/lib.rs` | `Factory/MultisigF` | with `Multisig2.new`; the gas subtraction is abstract |
| `w-near/src/*.rs` | `WNear/Model` | the fungible token core and storage management of near-contract-standards 3.1.0 are modelled from their published source |
| `state-manipulation/src/lib.rs` | `StateManip/Model` | `replace` and `clean` with a parameter for base64 and the limits of the host |
| lockup + pools + whitelist + poll together | `System/Model` | receipts of the lockup run the methods of the pool, whitelist and voting models. Pools' and poll's epochs advance independently; any receipt may be lost by the host (`hostOk = false`); receivers outside of the system answer arbitrarily. `Careful`: every accepted `add_staking_pool` is for an account running the staking pool contract. `Usual` (C89 only): what a pool owes is a `u128`, the host does not lose balance queries |
| the above + `staking-pool-factory` | `System/Joint` | one event is an event of the system or a receipt of the factory; they share the whitelist; a pool the factory creates is a pool of the system from then on. `Careful` need only be assumed of callers other than the factory (C100) |
| `System` + the votes of the pools | `System/Votes` | the promise of `vote` of a pool is a receipt that arrives at the poll in any order, late or never; an account that runs the staking pool contract calls the poll in no other way. The system inside is a run of `System` (`VotesSim.vrun_sys`) |
| `System` + a multisig2 wallet | `Wallet/Model` | the wallet (with its access keys, `Multisig2/Keys`) is an account of the system. The batch of an executed request is a receipt that arrives in any order, late or never, and takes effect as a whole or not at all; a key of the wallet can sign transactions to other accounts as far as its permission goes. Dispatch and decoding of arguments are parameters; the tokens of the wallet are not modelled; clocks of wallet and system are independent |

## 3. Properties and proofs

| id | where | proof |
|----|-------|-------|
| C01–C03, C06, C16 | `StakingPool/Props1` | invariant `T ≥ S > 0`, `S = S0 + Σ shares`; price order `T*S' ≤ T'*S` kept by each step; position value with history variables deposited/withdrawn; induction on the event list |
| C04, C05, C07, C17, C59 | `StakingPool/Props2` | totality lemmas under `Bounded` (`Totality`) on top of the invariant |
| C08–C11 | `StakingPool/Props3` | epochs of withdrawals, exactness of withdrawals, once per epoch, two-sided accounting of all tokens |
| C12–C15, C18, C60 | `StakingPool/Props4` | case analysis per method, induction for histories; pages concatenate to the key vector |
| C70–C73 | `StakingPool/Props5` | accuracy of conversions (both sides), exact promises, administration frame, neutrality of the moment of a ping |
| C90 | `StakingPool/Props6` | exact acceptance conditions from the totality lemmas; exact effect of a deposit and a withdrawal on the account of the caller |
| C19–C21, C23 | `Lockup/Props1` | floor-division monotonicity against an independent schedule specification (`Lockup/Spec`); exact acceptance of a transfer |
| C22 | `Lockup/Props1` | **refuted** and `_partial` |
| C24, C25 | `Lockup/Props2` | inductive invariants over the receipt queue (`Invariant`, `Coverage`, `History`) |
| C26 | `Lockup/Props2` | **refuted** and `_partial`; with real pools C89 |
| C27, C28 | `Lockup/Props3` | inversion of every method (`Cases`), trace theorems |
| C29–C34, C61 | `Lockup/Props4` | explicit event lists that complete a termination; roles, exact acceptance conditions |
| C74–C79 | `Lockup/Props5` | exact calls and views; C77 **refuted** and `_partial`; C79 explicit event lists that recover the tokens, from every idle state |
| C35–C38, C65 | `Voting/Props` | invariant `total = Σ votes`; trace theorems naming the deciding call |
| C39, C40 | `Whitelist/Props` | refinement to two sets; exact traces |
| C41–C44, C46, C48, C50, C62–C64, C80–C84 | `Multisig*/Props*` | trace invariants linking stored confirmations to past calls; exact acceptance and execution; liveness and lock-out |
| C45, C47, C49 | `Multisig*/Props*` | **refuted** and `_partial` |
| C51–C54, C66 | `Factory/PoolProps`, `Factory/LockupProps` | worlds with pending creations, ledgers per caller |
| C91 | `Factory/PoolProps2` | every receipt of a pool creation exactly; invariant over histories: a created pool is whitelisted or something about it is in flight |
| C97 | `Multisig/Props4`, `Multisig2/Props4` | every key traced to its source: induction over signed transactions, deliveries and calls (`KeySource`, `Keys`) |
| C98 | `Multisig2/Props4` | the operations on `k` under way turn its presence among the keys into its membership (`KeySync`) |
| C99 | `Multisig2/Props4`, `Factory/MultisigKeys` | the founding batch fails; no key, so only accounts act, and they are too few (C46) |
| C55 | `Factory/MultisigProps` | **refuted** and `_partial` |
| C56, C57, C67–C69 | `WNear/Props` (C69 also `Init`) | backing invariant, exact wrap/unwrap, settlement of transfer-calls |
| C58 | `StateManip/Props` | fold over the argument list refined to map semantics |
| C85 | `Init` | exact initialization |
| C86–C89 | `System/Props`, `Props2` | simulation of the composed system by the lockup world (`System/Sim`: every event of the system is a sequence of loss-free events of the lockup world whose pool holdings are what the views of the pools report), so that C24/C26 transfer; an own invariant for the selected pool (`Selected`) and for being never stuck (`Stuck`) |
| C94, C95 | `StakingPool/Props8` | share price before and after a distribution compared exactly; `Slash`: while the account is short, every event leaves the records alone (`Frozen`), after the refill the invariant holds again so that C05, C07, C17 apply |
| C96 | `Voting/Props2` | a vote that is not withdrawn stays recorded through recounts while the account has stake; sum over V is below the recorded total |
| C92, C93 | `System/Props3` | the stages of leaving a pool (`Stages`: unstake, fetch, leave / pay, each with the real pool answering); in between arbitrary events of others keep the lockup's records (`Calm`) and only help its account at the pool (bystander lemmas of C03/C13); the unlock epoch is never more than four epochs ahead (`StakingPool/Leave`) |
| C100 | `System/Props4` | a run of the joint world is a run of the factory world and one of the system (`JointSim.jrun_all`); the factory lists only newborn pools, so the whitelist assumption carries over; induction on the events for where listed pools come from |
| C101 | `System/Props5` | the receipts of a creation and of a selection run one after the other in an arbitrary reachable state |
| C102 | `Lockup/Props6`, `StakingPool/Props9`, `System/Props6` | every promise leaves the reserve (case analysis over the methods), induction; for pools the price and solvency invariants, with the founder's shares as one more claim |
| C103 | `System/Gas`, `System/Props6` | the metered world is simulated by the plain one: every receipt and callback has gas for 25 Tgas of work and for what it passes on, so only the calls that nobody paid for are left out; what each method passes on is computed exactly and compared with the documented amounts |
| C104 | `System/Ops`, `System/Props7` | the exact receipt (C74), the call of the real pool and the callback run one after the other in an arbitrary reachable state; acceptance and effect from the pool theorems (C17, C59, C90) |
| C105 | `System/Props8` | C92, then the exact receipt to the poll and its callback, then C19 (nothing locked at the end) and C32 |
| C106 | `Multisig/Props5`, `Multisig2/Props5` | each signed transaction is one step of the contract plus the queue; induction over the confirming keys; the single action of the batch applied to the access keys |
| C107 | `System/Props9` | a history with votes is a history of the system; induction on the events: votes under way were ordered by the owner (owners are constant, only `vote` makes the promise), the poll changes only by them; C88 and C36 for the two thirds, C65 for acceptance |
| C108 | `Wallet/Sim`, `Wallet/Live`, `Wallet/Lockup`, `Wallet/Props` | what the system sees of the wallet is the concatenation of the delivered batches (`flow_run`: delivered batches and those under way were issued, none twice); issued batches were approved (C42); with own keys nothing else gets out; for the lockup the receipts that carry value are traced to the call of the owner; the converse composes C106 with delivery |
| C109 | `System/Rewards`, `System/Props10` | composition of C104 (rounds are exact), C04 (unstaking what is staked works), waiting (`calm_sys_run`, and `locked_wait`: the locked amount does not grow meanwhile), C07 (withdrawal), C102 (reserve) and C76 (liquid is transferable) |
| C110 | `StakingPool/Compound`, `StakingPool/Props10` | share price after a step is at least the price before times the factor of the distribution made by the step (fee shares are bought at the new price, every other part of a call keeps the price), induction over the history with the product of the factors |
| C111 | `Multisig/Props6`, `Multisig2/Props6` | induction over the window with the list of requests added in it: by C82 they can leave only by deletion after the cooldown, execution or removal of their author, so all of them are still pending, and the limit check of the next `add_request` counts them |
| C112 | `Factory/LockupLife` | composition: the order determines the arguments of `new` (C54), before the first termination vesting and foundation are those arguments (`init_until_termination`), the other terms never change, and C20, C19, C23, C33 describe the lockup; the agreed amount is written down from the order alone |
| C113 | `StakingPool/Profit`, `StakingPool/Props11` | exact (rational) accounting: the value of everything not belonging to the group, unstaked plus shares at the exact price, only falls by what the others withdraw (price monotone, a stake charges at most and an unstake pays at least the exact value); the total grows by deposits, rewards and one yocto per rounding; the difference is the group's |
| C114 | `StakingPool/Unlock`, `StakingPool/Prompt`, `StakingPool/Props12` | what can be withdrawn before epoch `e + 4` grows only by deposits from any moment of epoch `e` on, and at that moment the tokens beyond the wanted stake covered it; so if the locked balance is at most the stake wanted at some moment of the last three epochs or now (`GivenBack`), everything due is liquid. `GivenBack` itself follows from the two rules of the runtime quoted in the code (late by one epoch, back after three) by following the queue of stake actions: each stake in the queue was wanted until the next one was asked for |
| C115 | `System/Prompt`, `System/Props11` | a history of the system is a history of the pool (`poolHist`: receipts of the lockup become calls of the lockup), so C114 applies to the pool inside the system; what the lockup unstaked is due after four epochs because the lockup makes no call in between, hence it is liquid, which was the only assumption of C92, C93, C105 and C109 about the pool's account |
| C116 | `Factory/PoolLife` | `ordered`: a created account started as the pool of an accepted call; the settings follow by induction over the later history of the pool (C72 for each step), the rest from C102, C113, C03 and C114, which hold for every started pool |
| C117 | `Factory/MultisigLife`, `Multisig2/Founders` | `origin`: a created account started with the members of an accepted call; as long as no batch to the account itself was issued, C50 leaves members and threshold alone and the sources of keys (C97) reduce to the founding batch, whose fate is an invariant (`founding_run`); liveness by running the transactions of the members |
| C118 | `Multisig2/Purse`, `Multisig2/Props7`, `Factory/MultisigPurse`, `Multisig/Purse`, `Multisig/Props7`, `Multisig/Props8` | the account with tokens follows a history with access keys (`prun_krun`); conservation by induction over events (`prun_sum`); full access keys from C97; who confirmed from C42, C46 and C45; payments of ordered wallets from C117 and `prun_enough` |
| C119 | `WNear/Props2` | induction over the accounts that leave, each step by C57 and C69, which hold after any history; the payments by induction over the receipts; the rest from C56 |
| C120 | `WNear/Props3` | induction over the events: balance minus unsettled transfer-calls, per call from C67 and per settlement from C68; the contract's own calls do nothing and are left out |
| C121 | `WNear/Props4` | induction over the events with a potential per account (paid, on the way, balance, storage deposit); each call by inversion, settlements by `resolve_total` |

## 4. Findings: where the code is not what one would expect

Each is a theorem (named in brackets); the refutations exhibit a concrete reachable run, the others hold in
general with an example beside them.

1. `VestingSchedule::assert_valid` is never called: `lockup.new` accepts cliffs before the start etc.
   (C22_invalid_schedule_accepted_refuted).
2. A failed balance view (e.g. out of gas) panics the `#[callback]` of the lockup and leaves the pool
   status busy for ever; no later event repairs it (C26_failing_view_blocks_forever_refuted). With the
   pools of `/repo` views do not fail by themselves (C89), so only gas can cause it.
3. With a private (hashed) vesting schedule the contract does not know the unvested amount before the
   termination reveals it; coverage can fail at that moment (C24_private_schedule_not_covered), and
   `get_locked_vested_amount` can panic (C77_private_view_panics_refuted).
4. Multisig and multisig2: deleting a key or member does not remove the confirmations it gave to requests
   of others; they still count (C45_refuted).
5. Multisig2: `new` accepts duplicate members, `SetNumConfirmations` is unchecked, so that the threshold
   can be unreachable; a request that already has all confirmations can be stuck after the threshold was
   lowered (C47 refutations, C64: locked for ever). The key-based multisig accepts zero and
   unreachable thresholds in `new` (C80, C84).
6. Multisig2: the method list of member keys names `add_and_confirm_request`, the method is called
   `add_request_and_confirm`, so that member keys cannot call it (C49_refuted).
7. Multisig factory: the deposit of a failed creation stays at the factory, for ever (C55_refuted,
   C55_never_returned).
8. Voting: a withdrawal of a vote whose own recount decides the poll returns early and leaves the vote
   counted for ever (C38_deciding_withdrawal_is_ignored).
9. Wrapped NEAR: `near_withdraw(0)` is accepted although the comment asks for a positive amount (C57_withdraw_zero).
10. A staking pool initialized with exactly the guarantee fund has no shares, and no stake call on it
    ever succeeds (C02_exactly_the_fund_is_dead). It is excluded from the initial states of the world; the
    factory demands 30 NEAR.
11. A staking pool whose account loses tokens (slashing) refuses every call except `vote` from the next
    epoch on, including withdrawals, until somebody sends the missing tokens to it (C95_slashed_pool_is_frozen,
    C95_refill_revives). A deposit cannot help, because it panics before it counts.
12. Multisig2: membership changes at once, access keys by a batch that may fail as a whole. `new` with a
    duplicate key leaves an account without keys; with too few account members it is locked for ever, and
    the multisig factory passes such lists on (C99_duplicate_key_locks, C99_factory_wallet_locked). A
    request that adds a new key together with an existing one makes a member without access key
    (C98_mixed_request_parts_them).

## 5. Tests of the theorems against wrong models

`seeded/LOG.jsonl` has one line per deliberately wrong model. All edits were made in a copy outside this
repository. There are two kinds.

* **Hand-made edits** imitate realistic bugs: a wrong boundary, a missed case, a swapped argument, a dropped
  update, a missing check. For each of them the statement of the named property theorem was *refuted* of the
  edited model: the library was rebuilt with all proofs skipped, and the negation of the statement was proved
  from a concrete counterexample, without `sorry`. So the theorem does not merely fail to compile; what it says
  is false of the wrong code. Every theorem in `MANIFEST.json` that makes a claim about all runs of the code has
  at least one such edit; theorems that exhibit a run (the refutations and the observations of section 4) and
  lemmas about the specification alone (`C58_named_or_not`) have none.
* **Generated edits** change one token or one line of one definition (comparison and arithmetic operators,
  constants, branches, dropped updates, dropped checks, dropped receipts). The log names the first theorems
  that no longer compile. It was not analysed one by one which property statements became false.

A generated edit that no theorem notices was examined by hand. Either the edit does not change the model (the
log says why), or it edits the environment, over which all claims quantify, or a theorem was added or
tightened. Theorems that exist because of this: `C03_total_balance_view`, `C03_ledger`, `C13_stake_action_executed`,
`C13_report_handled`, `C76_deficit_view`, `C103_documented_gas`, `C103_receipt_without_gas`,
`C103_stake_without_gas`, `C106_add_key`. Theorems that named a constant of the model, and so did not notice a
wrong constant, now state the number (`C23`, `C29`, `C54`, `C55`, `C74`, `C76`, `C93`); `C58_undecodable` covers
malformed input and `C98_member_key_signs` the deposit of a call signed with a member key. A review of every method by acceptance, effect, promises and frame
led to `C54_accepted_iff`, the `C69` theorems on storage, `C90` and `C91`.

## 6. Reading guide

`Common/Basic` (checked arithmetic, inversion lemmas), `Common/UMap` (ordered maps), then per contract
`Model` → `World` → `Cases`/`Lemmas` (inversion of every method) → `Invariant`/`History`/`Trace` →
`Props*`. `Demo` files hold the concrete worlds of the examples.
