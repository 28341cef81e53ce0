{"id": "C01", "title": "A delegator's staked balance never shrinks while they do nothing", "statement": "Between any two moments during which an account makes no call to the staking pool, the staked balance reported by get_account_staked_balance for that account does not decrease (the share price never decreases), whatever other delegators, the owner and the runtime do.", "quantifier": "for every reachable pool, every account, and every finite history of calls by other accounts, owner calls, rewards, epoch changes and stake-action results", "why_tests_cant": "Rounding in share arithmetic depends on all 128-bit values of totals and amounts and on arbitrarily long interleavings; unit tests sample a few.", "anchors": ["staking-pool/src/internal.rs:internal_stake", "staking-pool/src/internal.rs:inner_unstake", "staking-pool/src/internal.rs:internal_ping", "staking-pool/src/lib.rs:get_account_staked_balance"]}
{"id": "C02", "title": "The price of a stake share is at least one and the pool never runs out of shares", "statement": "After a successful `new` with more than the guarantee fund on the account, the total stake divided by the number of shares is at least 1 yoctoNEAR per share at all times, and both stay strictly positive, so the `can't be 0` assertions of the share conversions never fire.", "quantifier": "for every initial balance above the fund and every history", "why_tests_cant": "It is an inductive invariant over unbounded histories with 256-bit intermediate values.", "anchors": ["staking-pool/src/lib.rs:new", "staking-pool/src/internal.rs:num_shares_from_staked_amount_rounded_down", "staking-pool/src/internal.rs:staked_amount_from_num_shares_rounded_down"]}
{"id": "C03", "title": "Nobody can lose a single yocto by using the pool", "statement": "For every account, unstaked balance + staked balance (as reported by the view) + everything already paid out by withdrawals is at least everything the account ever deposited.", "quantifier": "for every account and every finite history of pool calls and runtime events", "why_tests_cant": "The bound must hold without any rounding loss over unbounded sequences of stake/unstake with arbitrary prices.", "anchors": ["staking-pool/src/lib.rs:deposit", "staking-pool/src/lib.rs:stake", "staking-pool/src/lib.rs:unstake", "staking-pool/src/lib.rs:withdraw", "staking-pool/src/internal.rs:internal_stake", "staking-pool/src/internal.rs:inner_unstake"]}
{"id": "C04", "title": "What was staked can be unstaked in full at any later time", "statement": "If a stake call charged an account X, then after any later history in which that account does not call the pool, unstake(X) by that account succeeds and credits at least X to its unstaked balance.", "quantifier": "for every reachable pool, amount, account, later history (within the token supply and guarantee-fund bounds)", "why_tests_cant": "Quantifies over all later histories and all rounding cases.", "anchors": ["staking-pool/src/internal.rs:internal_stake", "staking-pool/src/internal.rs:inner_unstake", "staking-pool/src/lib.rs:unstake"]}
{"id": "C05", "title": "unstake_all removes every share and always works", "statement": "For an account with a positive number of shares, unstake_all succeeds, leaves a staked balance of exactly zero shares (no dust) and credits at least the previously reported staked balance.", "quantifier": "for every reachable pool and every account holding shares", "why_tests_cant": "The absence of dust depends on the price being at least 1 for all histories, and on the composition of two roundings for all values.", "anchors": ["staking-pool/src/lib.rs:unstake_all", "staking-pool/src/internal.rs:inner_unstake"]}
{"id": "C06", "title": "The pool is solvent: rounding can only spend the guarantee fund, one yocto per stake or unstake", "statement": "At all times the total staked balance plus all unstaked balances is at most the accounted total balance minus 10^12 yocto plus the number of successful stake/unstake operations so far; hence for the first 10^12 such operations the tokens held (liquid plus locked) cover every delegator's claim.", "quantifier": "for every history without slashing", "why_tests_cant": "A cumulative rounding bound over unbounded histories.", "anchors": ["staking-pool/src/internal.rs:internal_stake", "staking-pool/src/internal.rs:inner_unstake", "staking-pool/src/internal.rs:internal_withdraw", "staking-pool/src/internal.rs:internal_ping", "staking-pool/src/lib.rs:STAKE_SHARE_PRICE_GUARANTEE_FUND"]}
{"id": "C07", "title": "Withdrawals succeed exactly when due and pay exactly the caller", "statement": "withdraw(x) succeeds iff 0 < x <= the caller's unstaked balance, the caller's unlock epoch has been reached and the account holds x liquid tokens; on success exactly one transfer of exactly x to the caller is emitted and the caller's unstaked balance falls by exactly x. Otherwise nothing changes.", "quantifier": "for every reachable pool, caller and amount (within supply bounds)", "why_tests_cant": "An if-and-only-if over all states, including the absence of any arithmetic trap.", "anchors": ["staking-pool/src/lib.rs:withdraw", "staking-pool/src/internal.rs:internal_withdraw"]}
{"id": "C08", "title": "Unstaked tokens are locked for four epochs, and not longer", "statement": "After an unstake in epoch e, no withdrawal by that account succeeds in any epoch before e+4, whatever it does in between; and from epoch e+4 on (absent another unstake by the same account) the epoch check no longer blocks withdrawal.", "quantifier": "for every reachable pool and every later history", "why_tests_cant": "Needs to consider every sequence of calls that could reset or delete the account record.", "anchors": ["staking-pool/src/internal.rs:inner_unstake", "staking-pool/src/internal.rs:internal_withdraw", "staking-pool/src/internal.rs:internal_save_account", "staking-pool/src/lib.rs:NUM_EPOCHS_TO_UNLOCK"]}
{"id": "C09", "title": "Only the caller's own balances change", "statement": "A call by account b never changes the unstaked balance, the number of shares or the unlock epoch of any other account, except that the pool owner may receive additional shares when rewards are distributed. In particular the owner cannot take or freeze other accounts' funds.", "quantifier": "for every method, caller, state and bystander account", "why_tests_cant": "Frame property over all methods and all states.", "anchors": ["staking-pool/src/lib.rs:StakingContract", "staking-pool/src/internal.rs:internal_save_account", "staking-pool/src/internal.rs:internal_ping"]}
{"id": "C10", "title": "The owner's cut never exceeds the fee fraction of the reward", "statement": "When rewards r are distributed with fee n/d, the total staked balance grows by exactly r, only the owner receives new shares, these are worth, at the price after distribution, at most fee = floor(r*n/d) (and one share more would be worth more than fee), and the new share price is at least the price obtained by giving r - fee to the existing shares.", "quantifier": "for every state, reward and valid fee fraction", "why_tests_cant": "Universally quantified rational inequality with floors.", "anchors": ["staking-pool/src/internal.rs:internal_ping", "staking-pool/src/lib.rs:RewardFeeFraction::multiply"]}
{"id": "C11", "title": "Rewards are distributed exactly once per epoch", "statement": "Within one epoch only the first call distributes rewards; a second ping in the same epoch changes nothing. Over a history the total distributed equals the growth of the token balance not explained by deposits and withdrawals up to the last distribution.", "quantifier": "for every history", "why_tests_cant": "History property.", "anchors": ["staking-pool/src/internal.rs:internal_ping", "staking-pool/src/lib.rs:ping"]}
{"id": "C12", "title": "A paused pool does not stake", "statement": "While the pool is paused no call other than the owner's resume_staking emits a stake action with a positive amount (stake actions already in flight when the pool was paused may still execute); pausing emits exactly one stake action of zero; only the owner can pause or resume.", "quantifier": "for every state and call, and every history between pause and resume", "why_tests_cant": "History property over all methods.", "anchors": ["staking-pool/src/lib.rs:pause_staking", "staking-pool/src/lib.rs:resume_staking", "staking-pool/src/internal.rs:internal_restake", "staking-pool/src/lib.rs:on_stake_action"]}
{"id": "C13", "title": "A failed stake action is followed by unstaking everything", "statement": "The callback of a restake can only be invoked by the contract itself; if the stake action failed and the account has locked tokens it emits a zero stake with the stored key (valid whenever the pool is not paused); it never changes balances or any other contract state.", "quantifier": "for every state, caller and promise result", "why_tests_cant": "All states, all callers, all promise results.", "anchors": ["staking-pool/src/lib.rs:on_stake_action"]}
{"id": "C14", "title": "Administrative methods are reserved to the owner, and the owner never changes", "statement": "update_staking_key, update_reward_fee_fraction, vote, pause_staking and resume_staking fail without effect for any caller other than the owner given at initialization; no call changes the owner; the stored fee fraction is always valid (denominator non-zero, numerator <= denominator).", "quantifier": "for every history", "why_tests_cant": "Invariant over histories.", "anchors": ["staking-pool/src/lib.rs:update_staking_key", "staking-pool/src/lib.rs:update_reward_fee_fraction", "staking-pool/src/lib.rs:vote", "staking-pool/src/internal.rs:assert_owner"]}
{"id": "C15", "title": "The paginated account listing is complete and duplicate free", "statement": "Concatenating consecutive pages of get_accounts lists every account with a positive balance exactly once with exactly the values of get_account, get_number_of_accounts is the number of such accounts, and an account is listed iff it has a positive unstaked balance or shares.", "quantifier": "for every reachable pool, every page size", "why_tests_cant": "Depends on the storage map's swap-removal order for every history.", "anchors": ["staking-pool/src/lib.rs:get_accounts", "staking-pool/src/lib.rs:get_number_of_accounts", "staking-pool/src/internal.rs:internal_save_account"]}
{"id": "C16", "title": "Share accounting is exact", "statement": "The total number of shares always equals the initial shares (which nobody owns) plus the sum of the shares of all accounts.", "quantifier": "for every history", "why_tests_cant": "Invariant over unbounded histories.", "anchors": ["staking-pool/src/internal.rs:internal_stake", "staking-pool/src/internal.rs:inner_unstake", "staking-pool/src/internal.rs:internal_ping"]}
{"id": "C17", "title": "The pool stays callable: no arithmetic trap within the token supply", "statement": "As long as all balances stay below 2^120 yocto (the NEAR supply is below 2^111), the epoch below 2^63 and at most 10^12 rounding operations happened, ping and deposit by any caller never panic in any reachable state.", "quantifier": "for every reachable state and caller", "why_tests_cant": "Absence of overflow over all reachable states.", "anchors": ["staking-pool/src/internal.rs:internal_ping", "staking-pool/src/internal.rs:internal_deposit", "staking-pool/src/lib.rs:ping", "staking-pool/src/lib.rs:deposit"]}
{"id": "C18", "title": "Combined pool calls equal their parts", "statement": "deposit_and_stake has the same effect on the pool as deposit followed by stake of the attached amount in the same epoch; withdraw_all equals withdraw of the full unstaked balance; stake_all equals stake of the full unstaked balance.", "quantifier": "for every state and caller", "why_tests_cant": "Equivalence for all states.", "anchors": ["staking-pool/src/lib.rs:deposit_and_stake", "staking-pool/src/lib.rs:withdraw_all", "staking-pool/src/lib.rs:stake_all"]}
{"id": "C19", "title": "The locked amount only goes down with time and is always within the lockup amount", "statement": "For a contract with a valid (or no, or hashed) vesting schedule, get_locked_amount at a later block time is at most its value at an earlier time, never exceeds lockup amount minus the terminated tokens already withdrawn, and reaches the terminated-unvested amount (0 without termination) once release and vesting have ended. It never panics.", "quantifier": "for every configuration and every pair of times", "why_tests_cant": "All 64-bit times and durations and 128-bit amounts, mixed with floor division.", "anchors": ["lockup/src/getters.rs:get_locked_amount", "lockup/src/getters.rs:get_unvested_amount"]}
{"id": "C20", "title": "The locked amount is the documented schedule", "statement": "get_locked_amount equals: everything while transfers are disabled or before the lockup moment; afterwards the maximum of the linearly decreasing unreleased part (minus terminated withdrawals, floored at 0) and the unvested part, where the lockup moment is max(transfers timestamp + lockup duration, lockup timestamp).", "quantifier": "for every configuration and time", "why_tests_cant": "Equality with an independent formula for all inputs.", "anchors": ["lockup/src/getters.rs:get_locked_amount", "lockup/src/types.rs:LockupInformation"]}
{"id": "C21", "title": "Vesting follows cliff and linear schedule", "statement": "For a valid schedule the unvested amount is the whole lockup amount before the cliff, 0 from the end on, linear (rounded down) in between, and is non-increasing in time.", "quantifier": "for every valid schedule, amount and time", "why_tests_cant": "All inputs.", "anchors": ["lockup/src/getters.rs:get_unvested_amount"]}
{"id": "C22", "title": "An invalid vesting schedule is rejected at initialization", "statement": "A lockup contract cannot be initialized with a vesting schedule whose start, cliff and end are out of order or whose duration is zero (so the unvested amount never exceeds the lockup amount and views never trap).", "quantifier": "for every schedule passed to new", "why_tests_cant": "Requires considering all schedules; the validation function exists but its use is not tested.", "anchors": ["lockup/src/lib.rs:new", "lockup/src/types.rs:VestingSchedule::assert_valid", "lockup/src/getters.rs:get_unvested_amount"]}
{"id": "C23", "title": "The owner can never transfer locked tokens", "statement": "Whenever transfer(x) by the owner succeeds, x is at most the liquid owner balance: afterwards the account balance (net of the storage reserve) plus the known staking deposit still covers the locked amount, and the storage reserve stays on the account. Only the owner can make it succeed, only when transfers are enabled, no termination is in progress and no pool operation is in flight.", "quantifier": "for every state, caller, receiver and amount", "why_tests_cant": "All states and amounts.", "anchors": ["lockup/src/owner.rs:transfer", "lockup/src/getters.rs:get_liquid_owners_balance"]}
{"id": "C24", "title": "Locked tokens stay under control over whole histories", "statement": "For a lockup without a private (hashed) vesting schedule, in every reachable state of the lockup together with staking pools that honour their guarantees, the tokens on the lockup account plus those in flight plus those held for it by the pool (plus what the pools lost to rounding) cover the locked amount, for every interleaving of owner calls, foundation calls, promise results and callbacks, until the locked amount is zero. (With a private schedule the contract cannot know the unvested amount before the termination reveals it, and coverage can fail at that moment.)", "quantifier": "for every history and schedule of asynchronous receipts", "why_tests_cant": "Asynchronous interleavings and failure points of promises cannot be enumerated.", "anchors": ["lockup/src/owner.rs", "lockup/src/owner_callbacks.rs", "lockup/src/foundation.rs", "lockup/src/foundation_callbacks.rs"]}
{"id": "C25", "title": "At most one staking pool operation is in flight", "statement": "In every reachable state at most one pool operation callback is pending; while it is pending every other pool operation, transfer, unselect and termination preparation is rejected.", "quantifier": "for every history of calls and callbacks", "why_tests_cant": "Asynchronous interleavings.", "anchors": ["lockup/src/internal.rs:assert_staking_pool_is_idle", "lockup/src/internal.rs:assert_no_staking_or_idle", "lockup/src/owner.rs"]}
{"id": "C26", "title": "A failing staking pool cannot block the lockup", "statement": "Whatever the selected staking pool answers (including failing), the contract returns to idle so that later operations are possible.", "quantifier": "for every pool behaviour", "why_tests_cant": "Requires considering failing view calls at every point of the multi-step flows.", "anchors": ["lockup/src/owner_callbacks.rs:on_get_account_total_balance", "lockup/src/owner_callbacks.rs:on_get_account_unstaked_balance_to_withdraw_by_owner", "lockup/src/foundation_callbacks.rs"]}
{"id": "C27", "title": "While a termination is in progress the owner cannot do anything", "statement": "While vesting termination is in progress every owner method fails without effect.", "quantifier": "for every terminating state and every owner method and argument", "why_tests_cant": "All states and arguments.", "anchors": ["lockup/src/internal.rs:assert_no_termination", "lockup/src/owner.rs"]}
{"id": "C28", "title": "The foundation receives at most the unvested amount fixed at termination", "statement": "Over the whole life of the contract the sum of all amounts transferred to receivers chosen by the foundation is at most the unvested amount at the time of termination (at most the lockup amount), and when the termination completes it is exactly that amount.", "quantifier": "for every history", "why_tests_cant": "Repeated partial withdrawals with failures and retries over unbounded histories.", "anchors": ["lockup/src/foundation.rs:termination_withdraw", "lockup/src/foundation_callbacks.rs:on_withdraw_unvested_amount", "lockup/src/foundation.rs:terminate_vesting"]}
{"id": "C29", "title": "The owner cannot prevent the foundation from completing a termination", "statement": "From every idle state in which a termination is in progress, with a pool that answers successfully, the sequence of foundation calls and callbacks leads to the contract having no vesting information and the full unvested amount paid out (given enough funds).", "quantifier": "for every terminating state and every amount staked or unstaked at the pool", "why_tests_cant": "Reachability from every state.", "anchors": ["lockup/src/foundation.rs", "lockup/src/foundation_callbacks.rs"]}
{"id": "C30", "title": "Only a whitelisted staking pool can be selected", "statement": "A staking pool becomes selected only when the whitelist contract answered that this very pool id is whitelisted to a query issued by an owner call; the selection is not overwritten without unselecting first, and unselecting requires a zero known deposit and no operation in flight.", "quantifier": "for every history", "why_tests_cant": "History property over asynchronous calls.", "anchors": ["lockup/src/owner.rs:select_staking_pool", "lockup/src/owner_callbacks.rs:on_whitelist_is_whitelisted", "lockup/src/owner.rs:unselect_staking_pool"]}
{"id": "C31", "title": "Enabling transfers is irreversible", "statement": "Once transfers are enabled with timestamp t they stay enabled with the same t forever; they become enabled only by a positive answer of the poll.", "quantifier": "for every history", "why_tests_cant": "History property.", "anchors": ["lockup/src/owner_callbacks.rs:on_get_result_from_transfer_poll", "lockup/src/owner.rs:check_transfers_vote"]}
{"id": "C32", "title": "A full access key can be added only when nothing is locked", "statement": "add_full_access_key succeeds iff called by the owner with transfers enabled, no termination in progress, pool idle or not selected, and a locked amount of zero.", "quantifier": "for every state, caller and key", "why_tests_cant": "All states.", "anchors": ["lockup/src/owner.rs:add_full_access_key"]}
{"id": "C33", "title": "Lockup authorization", "statement": "Every state change or token movement of the lockup is caused by a call of the owner (owner methods), of the foundation (termination methods), or a callback from the contract itself; the owner account never changes and nobody else can make any method succeed.", "quantifier": "for every call", "why_tests_cant": "All methods, callers, states.", "anchors": ["lockup/src/owner.rs", "lockup/src/foundation.rs", "lockup/src/owner_callbacks.rs", "lockup/src/foundation_callbacks.rs"]}
{"id": "C34", "title": "Termination does not take vested tokens", "statement": "Terminating vesting at time t fixes the amount to return as exactly the unvested amount at t; the owner's locked amount right after termination is not larger than right before (for a public valid schedule), and later vesting or release is unaffected by withdrawals of the foundation.", "quantifier": "for every schedule, release configuration and time", "why_tests_cant": "All inputs.", "anchors": ["lockup/src/foundation.rs:terminate_vesting", "lockup/src/getters.rs:get_locked_amount"]}
{"id": "C35", "title": "A vote passes only with more than two thirds of the stake", "statement": "The result is set only in a call after which the accounts currently voting yes hold, in the current epoch, strictly more than 2/3 of the total stake (3*yes > 2*total); conversely when a vote raises the yes stake above 2/3 the result is set in that call.", "quantifier": "for every history of votes, withdrawals, epoch changes and stake distributions", "why_tests_cant": "Histories of votes across epochs with changing stake; exact integer threshold.", "anchors": ["voting/src/lib.rs:vote", "voting/src/lib.rs:ping", "voting/src/lib.rs:check_result"]}
{"id": "C36", "title": "The poll result is write-once and final", "statement": "Once get_result returns a timestamp it returns the same timestamp forever and no vote is changed any more.", "quantifier": "for every later history", "why_tests_cant": "History property.", "anchors": ["voting/src/lib.rs:ping", "voting/src/lib.rs:vote", "voting/src/lib.rs:get_result"]}
{"id": "C37", "title": "The recorded total equals the sum of the recorded votes", "statement": "The total voted stake reported always equals the sum of the per-account stakes reported by get_votes, and each recorded stake is the account's validator stake in the epoch of the last update and is positive.", "quantifier": "for every history", "why_tests_cant": "Invariant across epoch recomputation and withdrawals.", "anchors": ["voting/src/lib.rs:get_total_voted_stake", "voting/src/lib.rs:get_votes", "voting/src/lib.rs:vote", "voting/src/lib.rs:ping"]}
{"id": "C38", "title": "Votes belong to their caster", "statement": "An account is counted iff it has cast vote(true) while the poll was open and since then neither withdrawn it with vote(false) while the poll was open nor been without stake in an epoch in which the contract was called; nobody else can add or remove its vote.", "quantifier": "for every history", "why_tests_cant": "History property.", "anchors": ["voting/src/lib.rs:vote"]}
{"id": "C39", "title": "Whitelist refines a pair of sets", "statement": "is_whitelisted(p) / is_factory_whitelisted(f) answer true iff the last successful add/remove call for that id was an add; add and remove return true iff they changed the set; the two lists do not influence each other.", "quantifier": "for every history", "why_tests_cant": "History property.", "anchors": ["whitelist/src/lib.rs:add_staking_pool", "whitelist/src/lib.rs:remove_staking_pool", "whitelist/src/lib.rs:add_factory", "whitelist/src/lib.rs:remove_factory"]}
{"id": "C40", "title": "Only the foundation or a currently whitelisted factory can whitelist a pool", "statement": "A pool id enters the list only by a call of the foundation or of an account that is a whitelisted factory at that moment; removals and factory changes only by the foundation; after a factory is removed it can add nothing.", "quantifier": "for every history and caller", "why_tests_cant": "History property over all callers.", "anchors": ["whitelist/src/lib.rs:assert_called_by_foundation", "whitelist/src/lib.rs:add_staking_pool"]}
{"id": "C41", "title": "A multisig request executes only with enough distinct confirmations", "statement": "Whenever a request's actions are issued, at least num_confirmations (its value at that time) distinct signer keys have each made a successful confirm call for that very request id since it was added, all through the account itself.", "quantifier": "for every history of calls by arbitrary keys", "why_tests_cant": "History property over all interleavings.", "anchors": ["multisig/src/lib.rs:confirm", "multisig/src/lib.rs:add_request"]}
{"id": "C42", "title": "A multisig request is executed at most once and exactly as requested", "statement": "A request id is never reused; after it is executed or deleted it is gone and cannot be executed again; the emitted actions are exactly the requested actions in order, to the requested receiver.", "quantifier": "for every history", "why_tests_cant": "History property.", "anchors": ["multisig/src/lib.rs:confirm", "multisig/src/lib.rs:execute_request", "multisig/src/lib.rs:remove_request"]}
{"id": "C43", "title": "Multisig bookkeeping is consistent", "statement": "Pending requests and confirmation sets have the same ids, no key confirms twice, and the per-key active request counter equals the number of pending requests made by that key, so no key exceeds the active request limit in force when it adds a request and no call ever hits an internal error or counter underflow.", "quantifier": "for every history", "why_tests_cant": "Invariant over unbounded histories including key deletion.", "anchors": ["multisig/src/lib.rs:add_request", "multisig/src/lib.rs:remove_request", "multisig/src/lib.rs:execute_request"]}
{"id": "C44", "title": "Requests can be deleted only after the cooldown", "statement": "delete_request by any key succeeds only if more than 15 minutes (in block time) passed since the request was added, and then removes exactly that request and its confirmations.", "quantifier": "for every state and time", "why_tests_cant": "All times and states.", "anchors": ["multisig/src/lib.rs:delete_request", "multisig2/src/lib.rs:delete_request"]}
{"id": "C45", "title": "Only confirmations of keys that are still authorised count", "statement": "When a request executes, every confirmation counted comes from a key or member that is still authorised at that time.", "quantifier": "for every history including member or key removal", "why_tests_cant": "Histories with removals between confirmation and execution.", "anchors": ["multisig/src/lib.rs:execute_request", "multisig2/src/lib.rs:delete_member", "multisig2/src/lib.rs:confirm"]}
{"id": "C46", "title": "multisig2: only members act, and execution needs enough distinct members", "statement": "add_request, confirm and delete_request succeed only for a current member (a key of the contract itself or an account); whenever a request executes at least num_confirmations distinct members, each a member when confirming, have confirmed it.", "quantifier": "for every history", "why_tests_cant": "History property.", "anchors": ["multisig2/src/lib.rs:current_member", "multisig2/src/lib.rs:confirm", "multisig2/src/lib.rs:assert_valid_request"]}
{"id": "C47", "title": "multisig2 can always reach its confirmation threshold", "statement": "The number of members is at least num_confirmations in every reachable state, so that the members together can always execute a request.", "quantifier": "for every initialization and history", "why_tests_cant": "Depends on duplicates in the initial list and on later configuration changes.", "anchors": ["multisig2/src/lib.rs:new", "multisig2/src/lib.rs:delete_member", "multisig2/src/lib.rs:execute_request"]}
{"id": "C48", "title": "multisig2 bookkeeping is consistent", "statement": "Pending requests and confirmation sets have the same ids, confirmations are duplicate free, and the per-member counter equals the number of that member's pending requests.", "quantifier": "for every history", "why_tests_cant": "Invariant incl. member deletion.", "anchors": ["multisig2/src/lib.rs:add_request", "multisig2/src/lib.rs:remove_request", "multisig2/src/lib.rs:delete_member"]}
{"id": "C49", "title": "multisig2 member keys can call every multisig entry point", "statement": "The access key added for a key member permits calling each of add_request, add_request_and_confirm, confirm and delete_request.", "quantifier": "for every member key", "why_tests_cant": "The method list is a string literal that no unit test exercises against the runtime's access-key check.", "anchors": ["multisig2/src/lib.rs:MULTISIG_METHOD_NAMES", "multisig2/src/lib.rs:add_member", "multisig2/src/lib.rs:add_request_and_confirm"]}
{"id": "C50", "title": "multisig configuration changes only through an executed self-request of one action", "statement": "num_confirmations and active_requests_limit change only when a request with that single action and the contract itself as receiver is executed with enough confirmations; in multisig2 the members change only when a request to the contract itself that contains the corresponding AddMember or DeleteMember actions is executed. An executed request has exactly the effect its actions ask for.", "quantifier": "for every history", "why_tests_cant": "History property.", "anchors": ["multisig/src/lib.rs:execute_request", "multisig2/src/lib.rs:execute_request", "multisig/src/lib.rs:assert_one_action_only", "multisig/src/lib.rs:assert_self_request"]}
{"id": "C51", "title": "Staking pool factory conserves the caller's deposit", "statement": "Every accepted create_staking_pool call ends either with the attached deposit on the newly created pool account or with exactly the attached deposit refunded to the caller; the factory's own balance is unchanged when all receipts are processed.", "quantifier": "for every interleaving of concurrent creations, failures and callbacks", "why_tests_cant": "Asynchronous interleavings.", "anchors": ["staking-pool-factory/src/lib.rs:create_staking_pool", "staking-pool-factory/src/lib.rs:on_staking_pool_create"]}
{"id": "C52", "title": "Only pools actually deployed by the factory are whitelisted", "statement": "The factory asks the whitelist to add an id only after the creation of that id succeeded; the id is a direct sub-account of the factory, deployed with the factory's code; at most one creation per id is in flight and a successfully created id is never created again; a failed id becomes available again.", "quantifier": "for every history", "why_tests_cant": "History with interleavings.", "anchors": ["staking-pool-factory/src/lib.rs:create_staking_pool", "staking-pool-factory/src/lib.rs:on_staking_pool_create", "staking-pool-factory/src/lib.rs:get_number_of_staking_pools_created"]}
{"id": "C53", "title": "Arguments produced by the factories are accepted by the deployed contracts", "statement": "For every accepted create call the initialization arguments and deposit passed on satisfy all checks of the deployed contract's new: the staking pool for the pool factory and the lockup for the lockup factory.", "quantifier": "for every accepted argument", "why_tests_cant": "Cross-contract property for all arguments.", "anchors": ["staking-pool-factory/src/lib.rs:create_staking_pool", "staking-pool/src/lib.rs:new", "lockup-factory/src/lib.rs:create", "lockup/src/lib.rs:new"]}
{"id": "C54", "title": "Lockup factory refunds failed creations and creates one deterministic account per owner", "statement": "The created account id is a function of the owner id and factory only; the attached deposit goes to that account or is refunded to the caller in full; vesting terminators are set iff a vesting schedule is given. An accepted call starts exactly one creation with the whole attached deposit; a rejected call changes nothing.", "quantifier": "for every call and callback", "why_tests_cant": "All inputs.", "anchors": ["lockup-factory/src/lib.rs:create", "lockup-factory/src/lib.rs:on_lockup_create"]}
{"id": "C55", "title": "Multisig factory returns the deposit when creation fails", "statement": "If creating the multisig account fails, the caller gets the attached deposit back.", "quantifier": "for every call and failure", "why_tests_cant": "The failure path is asynchronous.", "anchors": ["multisig-factory/src/lib.rs:create"]}
{"id": "C56", "title": "Wrapped NEAR is fully backed", "statement": "The total supply equals the sum of all balances and the contract's NEAR holdings cover the total supply plus the storage deposits of all registered accounts, after every history of deposits, withdrawals, transfers, transfer-calls with refunds and (un)registrations.", "quantifier": "for every history", "why_tests_cant": "Invariant over unbounded histories including asynchronous transfer calls.", "anchors": ["w-near/src/w_near.rs:near_deposit", "w-near/src/w_near.rs:near_withdraw", "w-near/src/lib.rs"]}
{"id": "C57", "title": "Wrap and unwrap are exact", "statement": "near_deposit by a registered account mints exactly the attached deposit (by an unregistered one, exactly the deposit minus the storage minimum); near_withdraw(x) succeeds iff exactly one yocto is attached and the balance is at least x, burns exactly x and pays x plus the attached yocto to the caller; wrapping then unwrapping is the identity on everybody's wrapped balance.", "quantifier": "for every state and amount", "why_tests_cant": "All states and amounts.", "anchors": ["w-near/src/w_near.rs:near_deposit", "w-near/src/w_near.rs:near_withdraw"]}
{"id": "C58", "title": "State replacement and cleaning touch exactly the named keys", "statement": "replace(entries) sets every named key to the last value given for it and leaves all other keys; clean(keys) removes exactly the named keys; undecodable input leaves the state unchanged.", "quantifier": "for every state and argument list", "why_tests_cant": "All states and lists, including duplicates.", "anchors": ["state-manipulation/src/lib.rs:replace", "state-manipulation/src/lib.rs:clean"]}
{"id": "C59", "title": "Staking works whenever it can buy a share", "statement": "If rewards were already distributed in this epoch and x is at most the caller's unstaked balance, stake(x) succeeds if and only if x is at least the price of one share (totalStaked <= totalShares * x).", "quantifier": "all reachable pool states within the token supply, all callers, all x", "why_tests_cant": "needs all combinations of share price, amounts and arithmetic limits; a test sees a handful of prices", "anchors": ["staking-pool/src/internal.rs:70-122", "staking-pool/src/lib.rs:279-287"]}
{"id": "C60", "title": "Stake actions request exactly the reported total and are always affordable", "statement": "Every stake action with a positive amount created by a pool call requests exactly get_total_staked_balance() with the stored, valid key and carries the recovery callback; as long as at most 10^12 rounding operations happened, the tokens on the account (liquid + locked) cover it at that moment.", "quantifier": "all reachable pool states, all calls, all callers", "why_tests_cant": "solvency over unbounded histories with rewards, rounding and withdrawals", "anchors": ["staking-pool/src/internal.rs:9-22", "staking-pool/src/lib.rs:23"]}
{"id": "C61", "title": "A private vesting schedule is binding", "statement": "A lockup created with the hash of a vesting schedule and salt can be terminated only by presenting exactly this schedule and salt (assuming the hash has no second preimage of its encoding), and the amount to return is then the unvested amount of exactly this schedule at the time of the call.", "quantifier": "for every reachable state, every presented schedule and salt of any length, every time", "why_tests_cant": "Needs injectivity of the encoding over all schedules and salts and all histories before the termination.", "anchors": ["lockup/src/types.rs:VestingScheduleWithSalt", "lockup/src/internal.rs:assert_vesting", "lockup/src/foundation.rs:terminate_vesting"]}
{"id": "C62", "title": "A removed multisig key is powerless", "statement": "While a key is not an access key of the multisig account and no batch stemming from one of its earlier transactions is under way, no call with that key reaches the contract from the account: the key can make, confirm and delete no request.", "quantifier": "for every later history of transactions, deliveries and foreign calls during which the key is not added again", "why_tests_cant": "History property over the account's access keys and in-flight self-batches.", "anchors": ["multisig/src/lib.rs:execute_request", "multisig/src/lib.rs:add_request", "multisig/src/lib.rs:confirm"]}
{"id": "C63", "title": "multisig2 members together can execute requests", "statement": "If num_confirmations is at most the number of members and the account itself is not listed as account member, then any executable pending request that some member has not confirmed executes once all members who have not confirmed it do so (in any order), and any new executable request by a member with room for it executes once all members confirm it.", "quantifier": "for every reachable state, request and order of confirmations", "why_tests_cant": "Liveness over all states and orders.", "anchors": ["multisig2/src/lib.rs:confirm", "multisig2/src/lib.rs:add_request"]}
{"id": "C64", "title": "A threshold above the number of members locks multisig2 for ever", "statement": "If fewer members exist than num_confirmations and nothing is pending, no later history executes any request.", "quantifier": "for every reachable state and every later history", "why_tests_cant": "Quantifies over all futures.", "anchors": ["multisig2/src/lib.rs:new", "multisig2/src/lib.rs:execute_request"]}
{"id": "C65", "title": "An open poll accepts every validator", "statement": "As long as the transfers poll has no result, ping and vote(false) succeed for everybody and vote(true) succeeds for every current validator; a vote(true) by a non-validator is accepted only when the recount it triggers decides the poll (and then it is not counted).", "quantifier": "for every reachable state, epoch, stake distribution (total stake below 2^127) and caller", "why_tests_cant": "Needs the invariant that no recorded stake exceeds the recorded total and that all sums stay in range for every stake history.", "anchors": ["voting/src/lib.rs:46-103"]}
{"id": "C66", "title": "The pool counter is exact", "statement": "get_number_of_staking_pools_created equals the number of staking pools created by the factory plus the number of creations still in flight, at every moment of every history.", "quantifier": "for every history of creations, failures, callbacks and direct calls", "why_tests_cant": "The counter is kept by insertions before and removals after asynchronous creations.", "anchors": ["staking-pool-factory/src/lib.rs:get_number_of_staking_pools_created", "staking-pool-factory/src/lib.rs:create_staking_pool", "staking-pool-factory/src/lib.rs:on_staking_pool_create"]}
{"id": "C67", "title": "Wrapped NEAR leaves an account only by its owner or as an unused transfer-call amount", "statement": "In every step of every history a registered account keeps its registration and at least its balance, with two exceptions: its own call with exactly one yocto attached (near_withdraw, ft_transfer, ft_transfer_call take exactly the amount they name and at most the balance; storage_unregister takes the whole balance, and without force only a balance of zero), and the callback of a transfer-call that this account received, which takes at most what the receiver's answer left unused. Nobody but the contract can run that callback.", "quantifier": "for every history, step and account", "why_tests_cant": "Ranges over all callers, methods and interleavings with asynchronous callbacks.", "anchors": ["w-near/src/w_near.rs:near_withdraw", "w-near/src/lib.rs"]}
{"id": "C68", "title": "Transfer-calls settle exactly once and conserve tokens", "statement": "ft_transfer and ft_transfer_call are accepted exactly if one yocto is attached, the receiver is another registered account, the amount is positive and at most the caller's balance; they move exactly that amount. The callback of a transfer-call never fails, whatever happened in between: it returns to the sender what the receiver left unused (everything if the receiver failed or answered nonsense, never more than was sent or than the receiver still has), or burns it if the sender has unregistered; nobody else is touched. Every accepted transfer-call is settled by exactly one callback and there are no others.", "quantifier": "for every history, answer of the receiver and order of callbacks", "why_tests_cant": "The callback runs in a state that other calls have changed in between; all interleavings and answers matter.", "anchors": ["w-near/src/lib.rs"]}
{"id": "C69", "title": "Wrapped NEAR registration returns exactly the storage deposit", "statement": "storage_deposit for an unregistered account registers it with balance zero for exactly the storage minimum and returns the rest to the caller; for a registered account it returns everything; no balance changes. storage_unregister is accepted exactly if the balance is zero or force is given, removes the account, burns its balance, and returns the storage minimum plus the attached yocto to the owner; the contract always has the tokens for it. storage_withdraw and storage_unregister of an unregistered account change nothing.", "quantifier": "for every history and amount", "why_tests_cant": "All states and amounts; solvency is an invariant over histories.", "anchors": ["w-near/src/lib.rs", "w-near/src/legacy_storage.rs:storage_minimum_balance"]}
{"id": "C70", "title": "Staking and unstaking convert the requested amount accurately", "statement": "Once the rewards of the epoch are distributed, stake(x) moves an amount c from the caller's unstaked to the staked balance: unstaked falls by exactly c, the reported staked balance rises by between c and c+2 yocto, and c is at most x and less than one share price plus one yocto below it. unstake(x) moves an amount r the other way: unstaked rises by exactly r, staked falls by between r-2 and r yocto, and r is at least x and less than one share price plus one yocto above it.", "quantifier": "for every reachable pool, caller and amount", "why_tests_cant": "Errors of integer rounding depend on all three of amount, total shares and total balance; a test fixes a handful of triples.", "anchors": ["staking-pool/src/internal.rs:internal_stake", "staking-pool/src/internal.rs:inner_unstake"]}
{"id": "C71", "title": "Every call creates exactly the promises that keep the validator stake in step", "statement": "A successful call creates exactly these promises and no others: one stake action for the reported total with the stored key and the recovery callback whenever rewards were distributed, tokens were staked or unstaked, the key was changed or staking was resumed (none while paused); a stake action of zero on pausing; one transfer of the withdrawn amount to the caller on a withdrawal; one call to the poll on a vote.", "quantifier": "for every reachable pool, caller, method, argument and deposit", "why_tests_cant": "The set of emitted promises depends on method, epoch, pause flag and state; tests assert on a few logs and do not look at missing or additional promises.", "anchors": ["staking-pool/src/lib.rs", "staking-pool/src/internal.rs:internal_restake"]}
{"id": "C72", "title": "Administrative calls change the one setting they name, after settling rewards under the old settings", "statement": "new stores the given owner, key and fee, stakes everything but the guarantee fund and starts unpaused without delegators. update_staking_key, update_reward_fee_fraction, pause_staking and resume_staking first distribute the pending rewards exactly as ping does under the old settings and then change the named setting and nothing else; vote changes nothing. Key and fee change only in a deposit-free call of the owner to the method for it and become the value given there.", "quantifier": "for every history and every event", "why_tests_cant": "A change hidden in another method, or a fee applied to rewards that were already earned, only shows for particular interleavings of rewards and administrative calls.", "anchors": ["staking-pool/src/lib.rs:new", "staking-pool/src/lib.rs:update_staking_key", "staking-pool/src/lib.rs:update_reward_fee_fraction", "staking-pool/src/lib.rs:vote", "staking-pool/src/lib.rs:pause_staking", "staking-pool/src/lib.rs:resume_staking"]}
{"id": "C73", "title": "The moment of reward distribution is neutral", "statement": "A ping by anybody right before a call does not change the outcome of the call: it succeeds with the same resulting contract state and the same transfers as without the ping, or fails in both cases.", "quantifier": "for every reachable pool, caller, method, argument, deposit and pinging account", "why_tests_cant": "It compares two executions for all states and calls.", "anchors": ["staking-pool/src/internal.rs:internal_ping", "staking-pool/src/lib.rs:ping"]}
{"id": "C74", "title": "Every lockup call is accepted exactly under its documented conditions and does exactly what it says", "statement": "Each staking operation of the owner is accepted exactly when the owner calls it without a deposit, with a positive amount, on an idle selected pool, outside a termination and (for deposits) with the amount on the account beyond the storage reserve; it marks the pool busy, changes nothing else and sends the one receipt it names to the selected pool with the matching callback. Selecting, unselecting, asking the transfer poll, terminating the vesting, preparing and executing the withdrawal of unvested tokens are likewise accepted exactly under their conditions, with exactly the named change and receipt; termination fixes the documented unvested amount and needs the pool exactly when one is selected and the account lacks the amount.", "quantifier": "for every state, caller, deposit, balance, time and argument", "why_tests_cant": "Acceptance is an equivalence over all states and arguments; tests try a few accepted and a few rejected calls.", "anchors": ["lockup/src/owner.rs", "lockup/src/foundation.rs"]}
{"id": "C75", "title": "The known deposit follows the answers of the pool", "statement": "The known deposit changes only when the callback of a staking operation runs, and then exactly as the answer says: plus the amount after a successful deposit, minus the amount (not below zero) after a successful withdrawal, equal to the reported total after a refresh, unchanged after a failure or any other operation; no answer is lost. With pools that keep their word the known deposit of an idle lockup is never more than the pools hold for it plus what they lost to rounding.", "quantifier": "for every history of calls, answers, failures and refunds", "why_tests_cant": "The bookkeeping is spread over callbacks that run after arbitrary other events.", "anchors": ["lockup/src/owner_callbacks.rs", "lockup/src/foundation_callbacks.rs:on_staking_pool_withdraw_for_termination"]}
{"id": "C76", "title": "The balance views are exact and the liquid balance is what can be transferred", "statement": "get_balance, get_owners_balance and get_liquid_owners_balance never panic while the balance fits in u128 and report: account balance plus known deposit; that minus the locked amount (not below zero); the smaller of that and the account balance beyond the storage reserve. With transfers enabled, no operation running and no termination, the owner can transfer an amount if and only if it is at most the reported liquid balance.", "quantifier": "for every reachable state, time and balance", "why_tests_cant": "The maximal transferable amount is a statement about all amounts and times.", "anchors": ["lockup/src/getters.rs:get_owners_balance", "lockup/src/getters.rs:get_liquid_owners_balance", "lockup/src/owner.rs:transfer"]}
{"id": "C77", "title": "get_locked_vested_amount reports the vested part of the locked amount", "statement": "get_locked_vested_amount, given the vesting schedule of the contract, never panics and reports the locked amount minus the unvested amount.", "quantifier": "for every reachable state, time and schedule", "why_tests_cant": "It needs locked >= unvested at every time of every schedule and release configuration.", "anchors": ["lockup/src/getters.rs:get_locked_vested_amount"]}
{"id": "C78", "title": "Initialization stores exactly its arguments", "statement": "new is accepted exactly when there is no state yet, no deposit is attached, owner, whitelist and transfer poll are valid account ids, and a foundation (a valid account id) is given exactly when there is vesting. The state then holds exactly the arguments, the lockup amount is the whole balance of the account, no pool is selected and nothing has been terminated.", "quantifier": "for every argument, balance and state", "why_tests_cant": "It is an equivalence over all argument combinations, including optional ones.", "anchors": ["lockup/src/lib.rs:new"]}
{"id": "C79", "title": "The owner can always bring the tokens back from an idle pool", "statement": "From every idle state with a selected pool and no termination the owner alone, calling unstake_all, withdraw_all_from_staking_pool, refresh_staking_pool_balance and unselect_staking_pool with a pool that answers truthfully, gets everything the pool holds for the lockup onto the account; afterwards no pool is selected, nothing else has changed and other receipts in flight are untouched. Withdrawing what the pool reports as unstaked moves exactly that amount.", "quantifier": "for every state and every amount held by the pool", "why_tests_cant": "It is a liveness property of a multi-step asynchronous protocol from arbitrary states.", "anchors": ["lockup/src/owner.rs:unstake_all", "lockup/src/owner.rs:withdraw_all_from_staking_pool", "lockup/src/owner_callbacks.rs"]}
{"id": "C80", "title": "Multisig initialization is exact", "statement": "new of the multisig is accepted exactly without deposit, before any state exists and with a u32 threshold (multisig2 in addition only if the threshold is at most the length of the list of members). Afterwards the threshold, and for multisig2 the members and their access keys, are exactly those given, the request limit is twelve, and no request, confirmation or request count exists.", "quantifier": "for every argument, deposit and state", "why_tests_cant": "It is an equivalence over all arguments, including thresholds of zero and above the number of members.", "anchors": ["multisig/src/lib.rs:new", "multisig2/src/lib.rs:new"]}
{"id": "C81", "title": "Adding a request is accepted exactly under its conditions and stores exactly the request", "statement": "add_request is accepted exactly when an entitled caller makes it without deposit, the numbers fit their types, the author has fewer pending requests than the limit and an id is left. It stores the request under the next id without confirmations, counts it for its author, changes nothing else and executes nothing. add_request_and_confirm does exactly what add_request followed by confirm does.", "quantifier": "for every reachable state, caller, deposit and request", "why_tests_cant": "Acceptance is an equivalence over all reachable states and requests, and \"nothing else\" ranges over all ids and members.", "anchors": ["multisig/src/lib.rs:add_request", "multisig/src/lib.rs:add_request_and_confirm", "multisig2/src/lib.rs:add_request", "multisig2/src/lib.rs:add_request_and_confirm"]}
{"id": "C82", "title": "A pending request and its confirmations persist", "statement": "Whatever happens, a pending request keeps its content, author, time and confirmations, except that a successful confirmation of this very request adds the confirming key or member at the end. It disappears only by being deleted, by being executed, or when another executed request removes its author.", "quantifier": "for every reachable state and every event", "why_tests_cant": "It is a frame property over every event, including self-calls that rewrite many requests at once.", "anchors": ["multisig/src/lib.rs", "multisig2/src/lib.rs"]}
{"id": "C83", "title": "Enough keys can always execute a pending request", "statement": "In the key-based multisig a pending executable request executes when distinct keys that have not confirmed it and suffice for the threshold confirm it one after the other, in any order.", "quantifier": "for every reachable state, request and sequence of keys", "why_tests_cant": "The number of keys and their order are unbounded.", "anchors": ["multisig/src/lib.rs:confirm", "multisig/src/lib.rs:execute_request"]}
{"id": "C84", "title": "A threshold above the number of keys locks the account for good", "statement": "In the key-based multisig, an account with fewer access keys than needed confirmations, no full access key, nothing pending and no batch under way never executes a request again and its keys never change, whatever is signed, delivered or called.", "quantifier": "for every history", "why_tests_cant": "It is a statement about all infinite futures of an account.", "anchors": ["multisig/src/lib.rs:new", "multisig/src/lib.rs:confirm"]}
{"id": "C85", "title": "Initialization of whitelist, poll, wrapped NEAR and factories is exact", "statement": "new of the whitelist, the voting contract, wrapped NEAR, the staking pool factory and the lockup factory is accepted exactly without deposit, before any state exists, with valid account ids (and for the lockup factory on an account id of at most 23 characters). Afterwards nothing is whitelisted and exactly the given foundation administers the whitelist; the poll is open without votes; nobody is registered and no wrapped tokens exist; no pool has been created; the factory knows exactly the given whitelist and foundation.", "quantifier": "for every argument, deposit and state", "why_tests_cant": "It is an equivalence over all arguments and states.", "anchors": ["whitelist/src/lib.rs:new", "voting/src/lib.rs:new", "w-near/src/lib.rs:new", "staking-pool-factory/src/lib.rs:new", "lockup-factory/src/lib.rs:new"]}
{"id": "C86", "title": "The locked tokens stay covered with the real staking pools", "statement": "In every joint history of a lockup (with no private vesting schedule terminated), the staking pools of this repository, the whitelist and the poll, the tokens on the lockup account, on their way to it, in flight to a pool and reported for it by the views of the deployed pools together cover the locked amount. Whenever no operation is in flight, the selected pool reports at least the deposit the lockup believes to have there.", "quantifier": "for every joint history of all contracts with arbitrary interleaving, third parties, epochs, rewards and lost receipts", "why_tests_cant": "It composes several contracts over unbounded asynchronous histories; unit tests of the lockup stub the pool.", "anchors": ["lockup/src/owner_callbacks.rs", "lockup/src/getters.rs", "staking-pool/src/lib.rs", "whitelist/src/lib.rs"]}
{"id": "C87", "title": "A lockup only ever stakes with a pool its owner asked for and the whitelist listed", "statement": "In every joint history in which only accounts running the staking pool contract are put on the whitelist, a selected pool was requested by the owner and listed by the whitelist contract at the moment the question arrived there; it runs the staking pool contract; and every receipt of the lockup to a pool goes to the selected one.", "quantifier": "for every joint history of lockup, pools, whitelist and poll", "why_tests_cant": "The question, the answer and the selection are separate receipts with anything happening in between.", "anchors": ["lockup/src/owner.rs:select_staking_pool", "lockup/src/owner_callbacks.rs:on_whitelist_is_whitelisted", "whitelist/src/lib.rs:is_whitelisted"]}
{"id": "C88", "title": "Transfers are enabled only by a two-thirds vote of the stake", "statement": "A lockup created with transfers disabled until the poll decides has transfers enabled with timestamp t only if the poll contract was decided at time t, not in the future, by one successful call after which accounts holding more than two thirds of the stake of that epoch voted yes.", "quantifier": "for every joint history of lockup and voting contract", "why_tests_cant": "It connects two contracts across asynchronous receipts and unbounded sets of validators.", "anchors": ["lockup/src/owner.rs:check_transfers_vote", "lockup/src/owner_callbacks.rs:on_get_result_from_transfer_poll", "voting/src/lib.rs:vote", "voting/src/lib.rs:get_result"]}
{"id": "C89", "title": "With the real staking pools a lockup is never stuck in the busy status", "statement": "In every joint history with real pools in which balances are u128 numbers and no balance query is lost for lack of gas: a busy lockup has a receipt to its selected pool under way, and when the answer is delivered the lockup is idle again or has sent the second, final receipt of a two-step operation.", "quantifier": "for every joint history with arbitrary failures of all other receipts", "why_tests_cant": "A lockup stuck in the busy status would lose all staking functions for good; the absence of any such history is a statement about infinitely many interleavings.", "anchors": ["lockup/src/owner_callbacks.rs", "lockup/src/foundation_callbacks.rs", "lockup/src/internal.rs:set_staking_pool_status", "staking-pool/src/lib.rs:get_account"]}
{"id": "C90", "title": "The staking pool accepts exactly the calls it should, and each does exactly what it says to the caller's account", "statement": "Once the rewards of the epoch are distributed: unstake(x) is accepted exactly when x is positive and at most the reported staked balance; deposit of d adds exactly d to the unstaked balance and changes neither the waiting time nor the staked balance; withdraw(x) takes exactly x from the unstaked balance and leaves the staked balance. Only deposit and deposit_and_stake take attached tokens. An administrative call is accepted exactly when it comes from the owner without tokens and its argument is in order (key valid unless paused; fee at most one with positive u32 denominator; poll a valid account id; pausing only when not paused, resuming only when paused).", "quantifier": "for every reachable state of the pool, every caller, every amount", "why_tests_cant": "The acceptance conditions are equivalences over all states; tests show single accepted and single rejected calls and cannot exclude further conditions that lock users out.", "anchors": ["staking-pool/src/lib.rs:unstake", "staking-pool/src/lib.rs:deposit", "staking-pool/src/lib.rs:withdraw", "staking-pool/src/lib.rs:update_reward_fee_fraction", "staking-pool/src/lib.rs:pause_staking", "staking-pool/src/internal.rs"]}
{"id": "C91", "title": "The life of a pool creation, receipt by receipt; pools of a whitelisted factory get whitelisted", "statement": "An accepted create_staking_pool starts exactly one creation, of poolId.factory with the attached deposit, the given owner, key and fee; when it is executed exactly one report follows, with its true outcome; a success makes the factory ask exactly its whitelist contract to add exactly this pool; that request takes effect exactly when the factory is entitled at that moment and changes nothing else. Consequently, in every history in which the factory is entitled all the time and nobody asks to remove the pool, every pool created by the factory is whitelisted as soon as nothing about it is in flight.", "quantifier": "for every history of the factory and the whitelist: all interleavings of creations, callbacks, failures and calls of others", "why_tests_cant": "Only an invariant over all interleavings excludes that a created pool is forgotten on the way to the whitelist; a test follows one creation at a time.", "anchors": ["staking-pool-factory/src/lib.rs:create_staking_pool", "staking-pool-factory/src/lib.rs:on_staking_pool_create", "whitelist/src/lib.rs:add_staking_pool"]}
{"id": "C92", "title": "The owner of a lockup can always get everything back from a staking pool, whatever the others do", "statement": "From every state in which a pool is selected, no operation is running and the vesting is not being terminated: the owner's unstake_all makes the pool unstake everything it reports; however the rest of the world behaves meanwhile (calls of others at the lockup and of anybody at the pools, rewards, pausing, lost receipts), once the pool is four epochs further and its account holds the unlocked tokens, withdraw_all_from_staking_pool brings at least everything the pool reported in the beginning onto the lockup account, and unselect_staking_pool then succeeds, leaving no pool selected and nothing reported for the lockup.", "quantifier": "for every reachable state of the lockup together with the staking pool, whitelist and voting contracts, and every sequence of events of others in between", "why_tests_cant": "The guarantee runs over four contracts, many receipts, and an unlimited wait filled by others; a test can follow one scenario with scripted others.", "anchors": ["lockup/src/owner.rs:unstake_all", "lockup/src/owner.rs:withdraw_all_from_staking_pool", "lockup/src/owner.rs:unselect_staking_pool", "lockup/src/owner_callbacks.rs", "staking-pool/src/lib.rs:unstake_all", "staking-pool/src/lib.rs:withdraw", "staking-pool/src/internal.rs"]}
{"id": "C93", "title": "The foundation can always complete a termination with the tokens staked at a real pool", "statement": "From every state in which the vesting is terminated with a deficit and no operation is running: the foundation's first termination_prepare_to_withdraw unstakes everything the pool reports as staked; whatever the owner, other accounts and the callers of the pools do meanwhile, once the pool is four epochs further and holds the unlocked tokens, the second one brings the whole unstaked balance to the lockup, and if the balance and what the pool reported in the beginning cover the unvested amount and the storage reserve, termination_withdraw pays exactly what is left of the unvested amount fixed at the termination and removes the vesting and the foundation.", "quantifier": "for every reachable state of the lockup together with the staking pool, whitelist and voting contracts, and every sequence of events not coming from the foundation in between", "why_tests_cant": "Needs all interleavings of a multi-epoch process over two contracts with an adversarial owner; tests script one run with a cooperating owner and a mock of the pool.", "anchors": ["lockup/src/foundation.rs:termination_prepare_to_withdraw", "lockup/src/foundation.rs:termination_withdraw", "lockup/src/foundation_callbacks.rs", "staking-pool/src/lib.rs:unstake", "staking-pool/src/lib.rs:withdraw", "staking-pool/src/lib.rs:get_account_staked_balance"]}
{"id": "C94", "title": "Rewards are split in proportion to the stakes", "statement": "When a reward r is found, the owner's fee f is taken out and every delegator's stake grows by its share: who has v of T staked tokens then has at least floor(v*(T+r-f)/T) and, up to rounding, not more. Over any history in which two delegators do nothing, their stakes grow by the same factor up to the rounding of the views, and the one with less never overtakes.", "quantifier": "for all reachable pools, all rewards and fees, all pairs of passive delegators and all histories of others", "why_tests_cant": "Rounding and share conversions accumulate over arbitrary sequences of operations by others; unit tests check a few amounts with fixed tolerances.", "anchors": ["staking-pool/src/internal.rs:internal_ping", "staking-pool/src/internal.rs:staked_amount_from_num_shares_rounded_down", "staking-pool/src/lib.rs:get_account_staked_balance"]}
{"id": "C95", "title": "A pool that loses tokens stops completely, keeps its records, and recovers when the loss is made up", "statement": "If tokens are taken from the account so that it holds less than was accounted (slashing), then from the next epoch on every call except vote fails, nothing is paid out and all recorded balances stay the same, for as long as the loss is not made up by tokens from outside; deposits cannot make it up. As soon as a plain transfer makes it up, ping, deposit, due withdrawals and unstake_all work again for everybody.", "quantifier": "for all reachable pools, all losses, and all histories of calls, rewards and transfers after the loss", "why_tests_cant": "Tests never take tokens away; the effect is on every method for an unlimited time.", "anchors": ["staking-pool/src/internal.rs:internal_ping"]}
{"id": "C96", "title": "Votes of two thirds of the stake decide the poll, whenever they were given", "statement": "If each account of a set V voted yes at some time, did not withdraw the vote since and had stake in all epochs since, and V holds more than two thirds of the stake of the current epoch, then the poll is decided at the latest with the next ping of anybody, whatever others did, in whatever order and epochs the votes came.", "quantifier": "for all histories of votes, pings and epochs, all stake distributions over time and all sets V", "why_tests_cant": "Stakes change between epochs and are recounted lazily; tests fix a few validators and one or two epochs.", "anchors": ["voting/src/lib.rs:ping", "voting/src/lib.rs:vote", "voting/src/lib.rs:check_result"]}
{"id": "C97", "title": "Nobody gets an access key to a multisig account without a confirmed request", "statement": "Every access key of a multisig or multisig2 account was there before the initialization, is the key of a founding member (multisig2, with the permission of members), was added by a transaction signed with a full access key, or was asked for, with exactly this permission, by an executed request to the account itself that at least num_confirmations distinct members (keys) had confirmed. If there is no full access key in the beginning and no executed request asks for one, there never is one.", "quantifier": "for all initial keys, members and thresholds, all histories of signed transactions, calls by others, and batches arriving in any order", "why_tests_cant": "Keys are added by promises that run later and interleave with everything else; the unit tests of the contracts do not execute promises at all.", "anchors": ["multisig/src/lib.rs:execute_request", "multisig2/src/lib.rs:new", "multisig2/src/lib.rs:execute_request", "multisig2/src/lib.rs:add_member"]}
{"id": "C98", "title": "Key members and access keys of a multisig2 account stay in step under single-purpose requests", "statement": "If the founding keys are distinct and every executed request that concerns the key k consists of one action adding k when it is not a member or deleting it when it is one, then, whenever no batch concerning k is under way, k is a member exactly if it is an access key of the account, and then it has exactly the permission of members. Without this discipline they part: a request that adds a new key together with one that is a member already leaves a member that has no access key.", "quantifier": "for all keys, members and all histories in which the account's batches to itself arrive in order and no full access key touches k", "why_tests_cant": "Membership changes at once, the key later and only if the whole batch succeeds; tests look at the contract state only.", "anchors": ["multisig2/src/lib.rs:add_member", "multisig2/src/lib.rs:delete_member", "multisig2/src/lib.rs:new"]}
{"id": "C99", "title": "A duplicate key among the founding members locks a multisig2 account", "statement": "If the members given to new contain a key twice, the batch that adds the access keys fails as a whole. If fewer distinct accounts than num_confirmations are members, then the account is locked for good: it never has an access key and no request is ever executed. The multisig factory passes duplicates on, so that the deposit of such a wallet is lost.", "quantifier": "for all member lists with a duplicate key, all thresholds above the number of account members, and all histories", "why_tests_cant": "The failure happens in a promise after new has succeeded and its effect is that nothing is possible ever after.", "anchors": ["multisig2/src/lib.rs:new", "multisig2/src/lib.rs:add_member", "multisig-factory/src/lib.rs:create"]}
{"id": "C100", "title": "With the real factory, whitelist and pools, no contract outside the repository has to be trusted with locked tokens", "statement": "Take one lockup, the staking pools, the whitelist and the staking pool factory together. If the foundation admits only this factory to the whitelist and lists no pools itself, then whatever the callers of all these contracts do: every listed account was listed when the lockup was created or is a pool the factory created because somebody asked for it with at least the minimum deposit, and it still has the owner that was asked for; the pool a lockup selects is such a pool; and the locked amount is covered by the account, what is on its way, and what the pools report. More generally, if everybody but the factory lists only staking pools, the factory never breaks this.", "quantifier": "for all lockup arguments, all pools and creations already in use, all interleavings of receipts of the factory, the lockup and the pools, and all calls of anybody", "why_tests_cant": "The guarantee spans four contracts and promises that interleave; unit tests run one contract at a time and do not execute promises.", "anchors": ["staking-pool-factory/src/lib.rs:create_staking_pool", "staking-pool-factory/src/lib.rs:on_staking_pool_create", "whitelist/src/lib.rs:add_staking_pool", "lockup/src/owner.rs:select_staking_pool", "staking-pool/src/lib.rs:new"]}
{"id": "C101", "title": "A pool created by the factory can be selected by a lockup", "statement": "Whenever the whitelist admits the factory, an accepted create_staking_pool with a good staking key for a new account ends with a new staking pool with the given owner on the whitelist, the factory keeps nothing, and the owner of a lockup without a selected pool and without a termination can then select it. Selecting ends with the pool selected if the whitelist lists it and changes nothing otherwise.", "quantifier": "for all reachable states of factory, whitelist, pools and lockup and all accepted creations", "why_tests_cant": "Needs seven receipts across four contracts; unit tests stop at the first promise.", "anchors": ["staking-pool-factory/src/lib.rs:create_staking_pool", "staking-pool-factory/src/lib.rs:on_staking_pool_create", "whitelist/src/lib.rs:add_staking_pool", "lockup/src/owner.rs:select_staking_pool", "lockup/src/owner_callbacks.rs:on_whitelist_is_whitelisted"]}
{"id": "C102", "title": "The storage reserve stays on the account", "statement": "No method of a lockup contract pays out of the 3.5 NEAR it reserves for its storage: whoever calls what, and whatever staking pools, the whitelist, the voting contract and receivers of transfers do, the account keeps the smaller of its balance and 3.5 NEAR; a lockup created with at least 3.5 NEAR always has at least 3.5 NEAR on its own account. A staking pool never pays out the tokens it was created with beyond the guarantee fund: they are on its account on top of what it owes to any set of delegators.", "quantifier": "for all initialisation arguments, all histories of calls, receipts, callbacks, rewards and epochs, all answers of other contracts, any set of delegators", "why_tests_cant": "An invariant over all interleavings of receipts and calls; unit tests set the account balance by hand and do not follow it.", "anchors": ["lockup/src/lib.rs:MIN_BALANCE_FOR_STORAGE", "lockup/src/getters.rs:get_account_balance", "lockup/src/owner.rs:transfer", "lockup/src/foundation.rs:termination_withdraw", "staking-pool/src/lib.rs:new", "staking-pool/src/internal.rs:internal_ping"]}
{"id": "C103", "title": "The gas the contracts attach to their promises suffices", "statement": "If the work of each single method costs at most the 25 Tgas that the lockup reserves for it, then no receipt and no callback of the lockup ever runs out of gas: the only thing that can fail for lack of gas is the first call of a user (which then has no effect), and the amount given in the documentation of each method (25 to 175 Tgas) is always enough for it. For most methods that amount is also needed; transfer and add_full_access_key get by with 25 instead of 50, termination_withdraw with 50 instead of 75. So a lockup that is busy always has a receipt to its pool under way; without these reserves a callback could be lost and the lockup stay busy for ever. The same reserves hold for the two factories.", "quantifier": "for all reachable states, all calls with any amount of attached gas, all amounts of gas burnt up to 25 Tgas per method, all interleavings", "why_tests_cant": "Unit tests run each method with the maximal gas and never execute the promises; whether the constants add up along every chain of promises is not tested.", "anchors": ["lockup/src/gas.rs:BASE_GAS", "lockup/src/owner.rs:withdraw_all_from_staking_pool", "lockup/src/foundation.rs:termination_prepare_to_withdraw", "staking-pool/src/lib.rs:ON_STAKE_ACTION_GAS", "staking-pool-factory/src/lib.rs:gas", "lockup-factory/src/lib.rs:gas"]}
{"id": "C104", "title": "The owner's staking operations arrive at the pool, exactly", "statement": "Each operation of the lockup owner on the selected staking pool (deposit, deposit and stake, withdraw, stake, unstake, unstake all), together with its receipt at the pool and its callback, has exactly the effect of the pool operation on the lockup's account at the pool: the deposit leaves the lockup, a withdrawn amount is on its way back, the known deposit changes by the amount, and nothing else changes anywhere; if the pool rejects the operation, nothing changed once the refund arrived. A deposit covered by the balance beyond the storage reserve is always accepted and adds exactly the amount to the unstaked balance; deposit_and_stake is accepted exactly when the amount buys at least one share, and what the pool owes grows by at least the amount. A refresh sets the known deposit to exactly what the pool owes.", "quantifier": "for all reachable states of lockup and pools, all amounts, any receipts already under way", "why_tests_cant": "Three receipts across two contracts; the unit tests of the lockup set promise results by hand and those of the pool call it directly.", "anchors": ["lockup/src/owner.rs:deposit_to_staking_pool", "lockup/src/owner.rs:deposit_and_stake", "lockup/src/owner.rs:refresh_staking_pool_balance", "lockup/src/owner_callbacks.rs:on_staking_pool_deposit", "lockup/src/owner_callbacks.rs:on_get_account_total_balance", "staking-pool/src/lib.rs:deposit", "staking-pool/src/lib.rs:deposit_and_stake"]}
{"id": "C105", "title": "After the poll, release and vesting the owner can take over the account with everything in it", "statement": "When the transfers poll is decided, one check_transfers_vote by the owner enables transfers in the lockup with exactly the time of the decision, and changes nothing else. Once moreover the release and the vesting are over, an idle lockup without termination accepts add_full_access_key from the owner, and the key is on the account with all its tokens. So, starting from tokens staked at a pool: unstake, wait four epochs while anybody else does anything, withdraw, leave the pool, ask the poll, add a key; then the account holds at least what it held plus everything the pool reported, and nothing is left at the pool.", "quantifier": "for all reachable states of lockup, pools, whitelist and poll with an idle selected pool and no termination, all events of others during the wait, all keys", "why_tests_cant": "Spans four contracts, a dozen receipts and callbacks and an arbitrary history before and during the wait.", "anchors": ["lockup/src/owner.rs:check_transfers_vote", "lockup/src/owner_callbacks.rs:on_get_result_from_transfer_poll", "lockup/src/owner.rs:add_full_access_key", "lockup/src/owner.rs:unstake_all", "lockup/src/owner.rs:withdraw_all_from_staking_pool", "voting/src/lib.rs:get_result"]}
{"id": "C106", "title": "The key holders of a multisig can change its keys and members", "statement": "In the multisig contract, the holders of num_confirmations distinct access keys can add an access key to the account and remove one: one of them proposes it, each of them confirms with an ordinary transaction, and when the batch has arrived the key is on the account with exactly the requested permission (or gone), and all other keys are as before. In multisig2, num_confirmations distinct members (keys or accounts) can in the same way take in a member or, if enough members remain, remove one; a member key becomes or ceases to be an access key of the account, with which its holder can sign exactly single calls without deposit of the four methods named in the contract.", "quantifier": "for all reachable states of the contract, all sets of access keys and batches under way, all keys and members", "why_tests_cant": "Unit tests call methods directly and never deliver the promise that changes the access keys; whether the confirmed request really changes who can act is not visible to them.", "anchors": ["multisig/src/lib.rs:add_request", "multisig/src/lib.rs:confirm", "multisig/src/lib.rs:execute_request", "multisig2/src/lib.rs:add_request", "multisig2/src/lib.rs:confirm", "multisig2/src/lib.rs:execute_request", "multisig2/src/lib.rs:add_member", "multisig2/src/lib.rs:delete_member"]}
{"id": "C107", "title": "Staking pools vote in the transfers poll exactly as their owners order", "statement": "A staking pool votes only because its owner said so: if the poll counts the vote of a pool, then it did so before, or a vote of the pool was already under way, or in between the owner of the pool made an accepted call of vote(poll, true); whatever other accounts, other pools and the lockup do in between and in whatever order the receipts arrive. Conversely a counted vote of a pool that has stake stays counted unless the owner orders vote(poll, false), and while the poll is open one order of the owner sets or takes back the vote of the pool and changes nothing else. Hence the transfers of a lockup are enabled only after accounts with more than two thirds of the stake voted, each staking pool among them by order of its owner.", "quantifier": "for all histories of lockup, pools, whitelist and poll, all delivery orders of the votes, all pools, owners, stakes and epochs", "why_tests_cant": "The pool and the voting contract are separate crates tested in isolation; no test delivers the pool's promise to the poll, let alone interleaves several pools, owners and epochs up to the unlocking of a lockup.", "anchors": ["staking-pool/src/lib.rs:vote", "voting/src/lib.rs:vote", "voting/src/lib.rs:ping", "voting/src/lib.rs:check_result", "lockup/src/owner.rs:check_transfers_vote", "lockup/src/owner_callbacks.rs:on_get_result_from_transfer_poll"]}
{"id": "C108", "title": "An account that is a multisig wallet acts in the system exactly as its members confirmed", "statement": "An account runs the multisig contract and owns a lockup or a staking pool, or is a foundation account, or uses these contracts in any other way, and has given out keys for calls of itself only. In every history, with batches arriving in any order, late or never: the calls it makes to lockup, staking pools, whitelist and poll are exactly those named by requests, each request at most once and with all of its calls in the listed order, and each such request was added by a member and since then confirmed by at least num_confirmations distinct members. With other keys the only further calls are transactions signed with an access key that permits them. Conversely, in every reachable state num_confirmations distinct members can make it perform any calls that the called contract accepts. Hence a lockup owned by the wallet pays, hands out a full access key or selects a staking pool only if a confirmed request asks for this very thing, and all theorems about the system hold beside the wallet.", "quantifier": "for all histories of wallet, lockup, pools, whitelist and poll, all members and thresholds, all requests and delivery orders, all method dispatchers", "why_tests_cant": "The multisig, lockup and pool crates are tested in isolation; no test lets a wallet own a lockup, and none interleaves several requests, keys and deliveries.", "anchors": ["multisig2/src/lib.rs:add_request", "multisig2/src/lib.rs:confirm", "multisig2/src/lib.rs:execute_request", "lockup/src/owner.rs:transfer", "lockup/src/owner.rs:add_full_access_key", "lockup/src/owner.rs:select_staking_pool", "lockup/src/internal.rs:assert_owner"]}
{"id": "C109", "title": "The owner of a lockup can take out staking rewards before the tokens are unlocked", "statement": "In every state that a lockup with real staking pools can reach, with enabled transfers, no running operation and no termination: after refresh_staking_pool_balance the balance of the owner is what is on the account plus what the pool owes to the lockup, rewards included, minus the locked amount, and the owner can transfer exactly the amounts covered by it and by the account beyond the storage reserve. And for every staked amount x covered by that balance, even if the whole lockup amount is still locked: the owner refreshes and unstakes x; whatever others and the pool do for four epochs, the owner can then withdraw x and transfer it to any account. Exactly x leaves the lockup, the rest stays staked, and the known deposit is what the pool reported minus x.", "quantifier": "for all reachable states, pools, amounts, reward histories and everything others do while the owner waits", "why_tests_cant": "The lockup tests use a hand-written pool answer; no test lets a real pool earn rewards, unstakes only the rewards, waits for the unlocking among other calls and transfers them out of a fully locked lockup.", "anchors": ["lockup/src/owner.rs:refresh_staking_pool_balance", "lockup/src/owner.rs:unstake", "lockup/src/owner.rs:withdraw_from_staking_pool", "lockup/src/owner.rs:transfer", "lockup/src/getters.rs:get_owners_balance", "lockup/src/getters.rs:get_liquid_owners_balance", "staking-pool/src/internal.rs:inner_unstake"]}
{"id": "C110", "title": "Staking rewards compound", "statement": "Over any history in which an account makes no call to the pool (while others deposit, stake, unstake and withdraw and the owner changes settings), its staked balance grows at least by the product of the growth factors of all reward distributions in that history, rounded down once: a distribution that finds the reward r while the total stake is T and takes the fee f multiplies by (T + r - f)/T. So rewards earn rewards, no action is needed for it, and the rounding of the share price never accumulates against the delegator. The rewards found by the distributions of a history add up exactly to the tokens that came in from outside, apart from what is still waiting for the next distribution.", "quantifier": "for all reachable pools, accounts, histories, numbers of distributions and reward amounts", "why_tests_cant": "The tests check one or two distributions for fixed amounts up to a tolerance; they cannot show that rounding errors of arbitrarily many operations never eat into the compound growth.", "anchors": ["staking-pool/src/internal.rs:internal_ping", "staking-pool/src/internal.rs:internal_stake", "staking-pool/src/internal.rs:inner_unstake", "staking-pool/src/lib.rs:get_account_staked_balance", "staking-pool/README.md:reward distribution"]}
{"id": "C111", "title": "Requests of a multisig are rationed", "statement": "In any window of fifteen minutes at most as many requests of one author (a key in multisig, a member in multisig2) are accepted as the limit of active requests says (12 unless changed by a confirmed request), whatever calls anybody makes in whatever order, including adding with confirmation and trying to delete the requests again: as long as no request of this author is executed meanwhile and no executed request removes the author or changes the limit. In multisig2, if the limit never was above L, the pending requests are never more than the number of members times L, whatever happened before.", "quantifier": "for all reachable contracts, authors, windows of at most 15 minutes and histories in them, and all interleavings with calls of others", "why_tests_cant": "The tests add a few requests and delete one after the cooldown; that no order of adding, confirming, deleting and waiting gets around the ration is a statement about all histories.", "anchors": ["multisig/src/lib.rs:add_request", "multisig/src/lib.rs:delete_request", "multisig/src/lib.rs:remove_request", "multisig2/src/lib.rs:add_request", "multisig2/src/lib.rs:delete_request", "multisig2/src/lib.rs:remove_request", "multisig2/src/lib.rs:delete_member", "multisig/README.md:SetActiveRequestsLimit"]}
{"id": "C112", "title": "A lockup ordered from the factory keeps to the order", "statement": "Every lockup that the factory created was ordered by an accepted call of `create`. Whatever happens on the lockup afterwards, as long as the foundation does not terminate the vesting (impossible if no vesting was ordered), the amount reported as locked is at every time computed from the arguments and the deposit of the order: the whole deposit until the release starts (the later of the start of transfers plus the lockup duration and the lockup timestamp), then the larger of the unreleased and the unvested part. When both have ended and no pool operation is running, the owner can transfer everything but 3.5 NEAR to anybody. Only the owner of the order, and the foundation of the factory if vesting was ordered, have a say: calls of anybody else, including who paid and the factory, change nothing.", "quantifier": "for all histories of the factory and all later histories of the created lockup, all arguments, deposits and times", "why_tests_cant": "The factory tests look at the arguments of the created promise; the lockup tests start from hand-written arguments. That the order determines the whole later life is a statement about both contracts and all histories.", "anchors": ["lockup-factory/src/lib.rs:create", "lockup-factory/README.md", "lockup/src/lib.rs:new", "lockup/src/getters.rs:get_locked_amount", "lockup/src/owner.rs:transfer"]}
{"id": "C113", "title": "No profit from a staking pool without rewards", "statement": "Take any group of accounts and any stretch of a pool's history. The balances shown for the members at the end plus everything paid to them exceed what the group had at the start plus what it deposited in between by at most the rewards distributed in between plus one yocto for each stake or unstake accepted in between. So no sequence of deposits, stakes, unstakes and withdrawals, by anybody in any order, moves stake of others to the group; with no rewards distributed, going in and out earns nothing beyond these roundings. Over the whole life of the pool no group, the owner included, gets more than it deposited plus what came in from outside, plus the roundings.", "quantifier": "for all reachable pools, all groups of accounts, all finite histories (calls by anybody, epochs, rewards, gifts, callbacks in any order)", "why_tests_cant": "Rounding attacks are sequences of calls chosen by an adversary with chosen amounts, possibly by several colluding accounts; tests try a few sequences. The bound is for all sequences and all groups.", "anchors": ["staking-pool/src/internal.rs:internal_stake", "staking-pool/src/internal.rs:inner_unstake", "staking-pool/src/internal.rs:internal_ping", "staking-pool/src/internal.rs:num_shares_from_staked_amount_rounded_down", "staking-pool/src/lib.rs:deposit_and_stake"]}
{"id": "C114", "title": "Unstaked tokens can be withdrawn after four epochs, by everybody at once", "statement": "Suppose the runtime executes the pool's stake actions in order and with success, each at the latest in the epoch after its creation, and gives back the difference three epochs after a reduction of the stake (the two facts in the comment on NUM_EPOCHS_TO_UNLOCK). Then an account that unstakes in epoch e and does not unstake again gets its whole unstaked balance from withdraw_all in any epoch from e + 4 on, whatever the others did in between and however many of them left: the liquid tokens are always enough for all accounts that may withdraw, together, in any order, and the guarantee fund is left over. Three epochs would not be enough.", "quantifier": "for all pools, all finite histories of calls by anybody, stake actions, rewards, gifts and epochs that respect the two rules of the runtime, all groups of accounts that may withdraw", "why_tests_cant": "That the tokens are there when many accounts leave in different epochs, while others stake, rewards arrive and stake actions are late, depends on the interleaving of calls with the runtime's unlocking; the simulation tests use a few accounts and a fixed schedule.", "anchors": ["staking-pool/src/lib.rs:NUM_EPOCHS_TO_UNLOCK", "staking-pool/src/internal.rs:inner_unstake", "staking-pool/src/internal.rs:internal_withdraw", "staking-pool/src/internal.rs:internal_restake", "staking-pool/src/lib.rs:pause_staking", "staking-pool/README.md:invariants"]}
{"id": "C115", "title": "The way out of a staking pool takes four epochs, even when all other delegators leave", "statement": "A lockup has an idle selected staking pool. After the owner's unstake_all anything may happen on the lockup and at the pool except calls of the owner and the foundation: all other delegators may leave, the pool may be paused, rewards may arrive. Four epochs later, if only the runtime kept its two rules at the pool (stake actions in order, with success and at most one epoch late; the difference given back three epochs after a reduction of the stake), the owner withdraws everything the pool had reported and leaves the pool; when the poll is decided and release and vesting are over, the owner ends with a full access key to an account holding all of it. In the same way the foundation completes a termination of vesting, and the owner takes out staking rewards before the tokens are unlocked. No assumption on the liquid balance of the pool is needed.", "quantifier": "for all reachable states of the system of lockup, pools, whitelist and poll, all histories of the pool, all waits that respect the two rules of the runtime", "why_tests_cant": "The tokens a lockup withdraws from a pool are on the pool's account only if the stake actions triggered by all delegators, their execution by the runtime and the four epochs of the contract fit together; tests of the lockup use a simulated pool with one delegator.", "anchors": ["lockup/src/owner.rs:unstake_all", "lockup/src/owner.rs:withdraw_all_from_staking_pool", "lockup/src/foundation.rs:termination_prepare_to_withdraw", "staking-pool/src/lib.rs:NUM_EPOCHS_TO_UNLOCK", "staking-pool/src/internal.rs:internal_withdraw", "lockup/README.md"]}
{"id": "C116", "title": "A staking pool ordered from the factory keeps to the order, and the deposit of the order stays on it", "statement": "Every pool the staking pool factory created was ordered by an accepted create_staking_pool. Whatever happens on the pool afterwards, its owner is the one of the order and its fee and staking key are those of the order or of a later call of this owner; the factory and the payer have no say. The deposit of the order belongs to nobody: the pool's account holds it, except for the guarantee fund of 10^12 yocto, on top of all claims of delegators, and no group of accounts ever holds and was paid more than it deposited on the pool itself plus rewards and gifts (plus one yocto per stake or unstake). Every delegator's balances and payouts cover its deposits, and four epochs after its last unstake withdraw_all pays the whole unstaked balance if the runtime keeps its two rules.", "quantifier": "for all histories of the factory and the whitelist, all pools created in them, all later histories of the pool, all groups of accounts", "why_tests_cant": "It ties the arguments of an asynchronous creation by one contract to everything that can ever happen on another contract; tests of the factory stop at the creation and tests of the pool start from a pool they initialized themselves.", "anchors": ["staking-pool-factory/src/lib.rs:create_staking_pool", "staking-pool-factory/src/lib.rs:on_staking_pool_create", "staking-pool/src/lib.rs:new", "staking-pool/src/lib.rs:update_reward_fee_fraction", "staking-pool/src/internal.rs:internal_withdraw", "staking-pool-factory/README.md"]}
{"id": "C117", "title": "A wallet ordered from the multisig factory is in the hands of the members of the order and of nobody else", "statement": "Every wallet the multisig factory created was ordered by an accepted create, bears the name and holds the deposit of the order. Whatever happens afterwards, as long as no request to the wallet itself was executed: its members and its number of confirmations n are those of the order, its only access keys are those of key members, with the permission for the member methods; whatever the wallet executes, up to and including the first request to the wallet itself, was proposed by a member of the order and confirmed by at least n distinct members of the order; transactions and calls of anybody else, including the factory and the payer, change nothing; and, if the order names no key twice and not the wallet itself, any n members can make the wallet execute any request of payments and calls, with nothing but their keys and accounts.", "quantifier": "for all histories of the factory, all wallets created in them, all later histories of the wallet with its access keys, all requests and all sets of n members", "why_tests_cant": "It ties the arguments of an asynchronous creation to everything that can later be signed, called or delivered on another account, for every group of members; tests of the factory stop at the creation and tests of the wallet call methods in a mocked context without access keys.", "anchors": ["multisig-factory/src/lib.rs:create", "multisig2/src/lib.rs:new", "multisig2/src/lib.rs:add_request", "multisig2/src/lib.rs:confirm", "multisig2/src/lib.rs:current_member", "multisig2/src/lib.rs:execute_request"]}
{"id": "C118", "title": "The tokens of a multisig account leave only by requests its members confirmed", "statement": "For both multisig contracts: the tokens on the account, those that executed requests took to other accounts and those sent with a full access key are together always what was there at the start and what arrived since. If the account starts without full access keys and no executed request adds one, no key sends tokens; whatever left the account left by requests that were executed once, are exactly what was proposed, and were confirmed by at least as many distinct members (multisig: distinct keys, each of which signed a transaction it was allowed to sign) as the account asked for. The holders of enough keys of a multisig can make it pay with whatever is on it, after which exactly the proposed tokens are gone. For a wallet ordered from the multisig factory, as long as no request to the wallet itself was executed: its tokens and what requests took away are together the deposit of the order and what arrived since, everything executed was proposed by a member of the order and confirmed by at least as many distinct members of the order as it says; and any n members can pay with whatever is on the wallet, after which exactly the proposed tokens are gone.", "quantifier": "for all histories of either multisig contract with its access keys and tokens, all starting balances, all payments arriving from outside, all histories of the factory and all wallets created in them", "why_tests_cant": "It is about the balance after any interleaving of proposals, confirmations, transactions signed with any key, payments and receipts; unit tests run methods in a mocked context where promises take no tokens and keys have no permissions.", "anchors": ["multisig2/src/lib.rs:execute_request", "multisig2/src/lib.rs:confirm", "multisig2/src/lib.rs:add_request", "multisig/src/lib.rs:execute_request", "multisig/src/lib.rs:confirm", "multisig/src/lib.rs:add_request", "multisig-factory/src/lib.rs:create"]}
{"id": "C119", "title": "Everybody can unwrap wrapped NEAR at once", "statement": "After any history of the wrapped NEAR contract, any registered accounts can, in any order, unwrap all they have with near_withdraw and give up their registration with storage_unregister: every call is accepted, nobody else's balance or registration changes, and when the payments are executed each of them has received exactly its balance, the storage deposit and the two yoctoNEAR it attached, and nobody else anything. If these are all registered accounts, the supply is zero afterwards and the contract still holds at least what it had at the beginning.", "quantifier": "for all histories (with transfer-calls in any state of settlement), all sets of registered accounts other than the contract itself, all orders in which they leave, as long as the supply is below 2^128 - 1", "why_tests_cant": "It is about every order of withdrawals of arbitrarily many accounts after an arbitrary history, where each withdrawal depends on what the earlier ones left on the contract; tests unwrap for one account in a mocked context.", "anchors": ["w-near/src/w_near.rs:near_withdraw", "w-near/src/w_near.rs:near_deposit", "w-near/src/lib.rs"]}
{"id": "C120", "title": "An account that calls nothing loses no wrapped NEAR", "statement": "While an account makes no calls to the wrapped NEAR contract, whatever everybody else does and however transfer-calls are answered, its balance without the amounts of the transfer-calls to it that are not settled never shrinks, and it stays registered. The contract's own account makes no calls at all, so this holds for it in every history: wrapped NEAR sent to it can never be unwrapped or moved by anybody, apart from the unused part of a transfer-call; and any holder can send it there as soon as anybody has registered it.", "quantifier": "for all histories before, all later histories without a call by the account, all interleavings of transfer-calls and their settlements", "why_tests_cant": "It is about everything all other accounts can do in histories of any length, with transfer-calls open at the start or begun later; tests call single methods in a mocked context.", "anchors": ["w-near/src/w_near.rs:near_withdraw", "w-near/src/lib.rs:impl_fungible_token_core", "w-near/src/lib.rs:impl_fungible_token_storage"]}
{"id": "C121", "title": "Nobody gets more out of wrapped NEAR than was put in for them", "statement": "In every history, what an account has been paid by the wrapped NEAR contract, the payments and transfer-call refunds still on their way to it, its wrapped balance and its storage deposit together are at most what they were before plus what accepted calls put in for it since: its own attached deposits, wrapped tokens others sent to it, and its storage deposit when others paid it. From the initialization on, the payments and holdings of an account are bounded by what was put in for it.", "quantifier": "for all accounts, all histories and continuations, all answers and failures of promises and all interleavings", "why_tests_cant": "It is a bound over arbitrary sequences of deposits, transfers, transfer-calls answered in any way, forced unregistrations and failing payments; tests check single calls in a mocked context without promises.", "anchors": ["w-near/src/w_near.rs:near_deposit", "w-near/src/w_near.rs:near_withdraw", "w-near/src/lib.rs:impl_fungible_token_core", "w-near/src/lib.rs:impl_fungible_token_storage"]}
