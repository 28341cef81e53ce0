{
 "claims": [
  {
   "property": "C01",
   "status": "proved",
   "theorems": [
    "Verif.StakingPool.C01_staked_balance_never_decreases",
    "Verif.StakingPool.C01_share_price_never_decreases"
   ],
   "note": ""
  },
  {
   "property": "C02",
   "status": "proved",
   "theorems": [
    "Verif.StakingPool.C02_share_price_at_least_one",
    "Verif.StakingPool.C02_exactly_the_fund_is_dead"
   ],
   "note": ""
  },
  {
   "property": "C03",
   "status": "proved",
   "theorems": [
    "Verif.StakingPool.C03_no_account_loses",
    "Verif.StakingPool.C03_position_value_monotone",
    "Verif.StakingPool.C03_total_balance_view",
    "Verif.StakingPool.C03_ledger"
   ],
   "note": ""
  },
  {
   "property": "C04",
   "status": "proved",
   "theorems": [
    "Verif.StakingPool.C04_staked_can_be_unstaked"
   ],
   "note": ""
  },
  {
   "property": "C05",
   "status": "proved",
   "theorems": [
    "Verif.StakingPool.C05_unstake_all_exact"
   ],
   "note": ""
  },
  {
   "property": "C06",
   "status": "proved",
   "theorems": [
    "Verif.StakingPool.C06_solvency",
    "Verif.StakingPool.C06_rounding_favours_delegators"
   ],
   "note": "total claims bounded on both sides; covers the first 10^12 rounding operations"
  },
  {
   "property": "C07",
   "status": "proved",
   "theorems": [
    "Verif.StakingPool.C07_withdraw_iff"
   ],
   "note": ""
  },
  {
   "property": "C08",
   "status": "proved",
   "theorems": [
    "Verif.StakingPool.C08_unstaked_tokens_locked_four_epochs",
    "Verif.StakingPool.C08_available_after_four_epochs"
   ],
   "note": ""
  },
  {
   "property": "C09",
   "status": "proved",
   "theorems": [
    "Verif.StakingPool.C09_only_the_caller_changes",
    "Verif.StakingPool.C09_funds_cannot_be_frozen"
   ],
   "note": ""
  },
  {
   "property": "C10",
   "status": "proved",
   "theorems": [
    "Verif.StakingPool.C10_owner_cut_bounded"
   ],
   "note": ""
  },
  {
   "property": "C11",
   "status": "proved",
   "theorems": [
    "Verif.StakingPool.C11_second_ping_does_nothing",
    "Verif.StakingPool.C11_rewards_distributed_exactly_once",
    "Verif.StakingPool.C11_distribution_is_complete"
   ],
   "note": "once per epoch; two-sided accounting of all tokens; completeness right after a distribution"
  },
  {
   "property": "C12",
   "status": "proved",
   "theorems": [
    "Verif.StakingPool.C12_paused_pool_does_not_stake",
    "Verif.StakingPool.C12_pause_unstakes_everything",
    "Verif.StakingPool.C12_only_owner_changes_pause",
    "Verif.StakingPool.C12_no_new_stake_while_paused"
   ],
   "note": ""
  },
  {
   "property": "C13",
   "status": "proved",
   "theorems": [
    "Verif.StakingPool.C13_callback_is_private",
    "Verif.StakingPool.C13_failed_stake_is_unstaked",
    "Verif.StakingPool.C13_key_valid",
    "Verif.StakingPool.C13_stake_action_executed",
    "Verif.StakingPool.C13_report_handled"
   ],
   "note": ""
  },
  {
   "property": "C14",
   "status": "proved",
   "theorems": [
    "Verif.StakingPool.C14_admin_methods_are_owner_only",
    "Verif.StakingPool.C14_owner_constant_and_fee_valid"
   ],
   "note": ""
  },
  {
   "property": "C15",
   "status": "proved",
   "theorems": [
    "Verif.StakingPool.C15_listing_complete"
   ],
   "note": ""
  },
  {
   "property": "C16",
   "status": "proved",
   "theorems": [
    "Verif.StakingPool.C16_share_accounting_exact"
   ],
   "note": ""
  },
  {
   "property": "C17",
   "status": "proved",
   "theorems": [
    "Verif.StakingPool.C17_ping_and_deposit_never_panic"
   ],
   "note": "under balances < 2^120, epoch < 2^63, at most 10^12 rounding operations (predicate Bounded)"
  },
  {
   "property": "C18",
   "status": "proved",
   "theorems": [
    "Verif.StakingPool.C18_deposit_and_stake",
    "Verif.StakingPool.C18_all_variants"
   ],
   "note": ""
  },
  {
   "property": "C19",
   "status": "proved",
   "theorems": [
    "Verif.Lockup.C19_locked_amount_monotone",
    "Verif.Lockup.C19_locked_amount_end",
    "Verif.Lockup.C19_locked_amount_history"
   ],
   "note": ""
  },
  {
   "property": "C20",
   "status": "proved",
   "theorems": [
    "Verif.Lockup.C20_locked_amount_is_documented",
    "Verif.Lockup.C20_never_more_than_documented"
   ],
   "note": ""
  },
  {
   "property": "C21",
   "status": "proved",
   "theorems": [
    "Verif.Lockup.C21_vesting_schedule"
   ],
   "note": ""
  },
  {
   "property": "C22",
   "status": "partial",
   "theorems": [
    "Verif.Lockup.C22_invalid_schedule_accepted_refuted",
    "Verif.Lockup.C22_valid_schedule_is_safe_partial"
   ],
   "note": "false of the code: VestingSchedule::assert_valid is never called, so new accepts cliff < start etc.; refuted with a witness whose getters panic/are wrong; the positive part for valid schedules is the _partial theorem"
  },
  {
   "property": "C23",
   "status": "proved",
   "theorems": [
    "Verif.Lockup.C23_transfer_iff",
    "Verif.Lockup.C23_owner_cannot_transfer_locked"
   ],
   "note": ""
  },
  {
   "property": "C24",
   "status": "proved",
   "theorems": [
    "Verif.Lockup.C24_locked_tokens_covered",
    "Verif.Lockup.C24_quiet_world",
    "Verif.Lockup.C24_private_schedule_not_covered"
   ],
   "note": "holds with honest pools and no private schedule; C24_private_schedule_not_covered shows why the private case is excluded"
  },
  {
   "property": "C25",
   "status": "proved",
   "theorems": [
    "Verif.Lockup.C25_one_pool_operation"
   ],
   "note": ""
  },
  {
   "property": "C26",
   "status": "partial",
   "theorems": [
    "Verif.Lockup.C26_failing_view_blocks_forever_refuted",
    "Verif.Lockup.C26_returns_to_idle_partial"
   ],
   "note": "false of the code: a failing view call in a two-step flow panics the #[callback] and leaves the pool status busy forever; refuted with a run (and proof that no later event repairs it); _partial covers all single-step operations"
  },
  {
   "property": "C27",
   "status": "proved",
   "theorems": [
    "Verif.Lockup.C27_owner_blocked_during_termination"
   ],
   "note": ""
  },
  {
   "property": "C28",
   "status": "proved",
   "theorems": [
    "Verif.Lockup.C28_foundation_receives_unvested",
    "Verif.Lockup.C28_fixed_amount_is_unvested"
   ],
   "note": ""
  },
  {
   "property": "C29",
   "status": "proved",
   "theorems": [
    "Verif.Lockup.C29_termination_completes"
   ],
   "note": ""
  },
  {
   "property": "C30",
   "status": "proved",
   "theorems": [
    "Verif.Lockup.C30_selected_pool_is_whitelisted",
    "Verif.Lockup.C30_selection_not_overwritten"
   ],
   "note": ""
  },
  {
   "property": "C31",
   "status": "proved",
   "theorems": [
    "Verif.Lockup.C31_enabled_forever",
    "Verif.Lockup.C31_enabled_only_by_poll"
   ],
   "note": ""
  },
  {
   "property": "C32",
   "status": "proved",
   "theorems": [
    "Verif.Lockup.C32_add_full_access_key_iff",
    "Verif.Lockup.C32_key_only_when_nothing_locked"
   ],
   "note": ""
  },
  {
   "property": "C33",
   "status": "proved",
   "theorems": [
    "Verif.Lockup.C33_authorization",
    "Verif.Lockup.C33_roles_are_fixed",
    "Verif.Lockup.C33_every_change_is_authorized"
   ],
   "note": ""
  },
  {
   "property": "C34",
   "status": "proved",
   "theorems": [
    "Verif.Lockup.C34_termination_fixes_unvested",
    "Verif.Lockup.C34_payment_does_not_lock_more",
    "Verif.Lockup.C34_locked_after_termination"
   ],
   "note": ""
  },
  {
   "property": "C35",
   "status": "proved",
   "theorems": [
    "Verif.Voting.C35_decided_iff_two_thirds",
    "Verif.Voting.C35_result_has_a_deciding_call"
   ],
   "note": "exact iff after every successful call, plus a trace theorem naming the deciding call"
  },
  {
   "property": "C36",
   "status": "proved",
   "theorems": [
    "Verif.Voting.C36_result_is_final"
   ],
   "note": "all calls are rejected once there is a result"
  },
  {
   "property": "C37",
   "status": "proved",
   "theorems": [
    "Verif.Voting.C37_total_is_the_sum",
    "Verif.Voting.C37_stakes_of_last_update"
   ],
   "note": ""
  },
  {
   "property": "C38",
   "status": "proved",
   "theorems": [
    "Verif.Voting.C38_counted_iff",
    "Verif.Voting.C38_others_cannot_touch",
    "Verif.Voting.C38_deciding_withdrawal_is_ignored"
   ],
   "note": "exact trace characterisation; a withdrawal whose own recount decides the poll leaves the vote counted (the code returns early)"
  },
  {
   "property": "C39",
   "status": "proved",
   "theorems": [
    "Verif.Whitelist.C39_refines_two_sets",
    "Verif.Whitelist.C39_pool_listed_iff",
    "Verif.Whitelist.C39_factory_listed_iff",
    "Verif.Whitelist.C39_views_total"
   ],
   "note": "refinement to two sets and exact trace characterisation; account id validity is an abstract predicate"
  },
  {
   "property": "C40",
   "status": "proved",
   "theorems": [
    "Verif.Whitelist.C40_success_iff",
    "Verif.Whitelist.C40_pool_was_authorized",
    "Verif.Whitelist.C40_removed_factory_is_powerless"
   ],
   "note": "exact success condition for each call and trace theorems"
  },
  {
   "property": "C41",
   "status": "proved",
   "theorems": [
    "Verif.Multisig.C41_enough_distinct_confirmations"
   ],
   "note": ""
  },
  {
   "property": "C42",
   "status": "proved",
   "theorems": [
    "Verif.Multisig.C42_ids_never_reused",
    "Verif.Multisig.C42_executed_at_most_once",
    "Verif.Multisig.C42_executed_as_requested",
    "Verif.Multisig.C42_deleted_never_executed",
    "Verif.Multisig.C42_executed_is_gone",
    "Verif.Multisig2.C42_ids_never_reused",
    "Verif.Multisig2.C42_executed_at_most_once",
    "Verif.Multisig2.C42_executed_as_requested",
    "Verif.Multisig2.C42_deleted_never_executed",
    "Verif.Multisig2.C42_executed_is_gone"
   ],
   "note": ""
  },
  {
   "property": "C43",
   "status": "proved",
   "theorems": [
    "Verif.Multisig.C43_bookkeeping",
    "Verif.Multisig.C43_limit_respected",
    "Verif.Multisig.C43_add_request_iff",
    "Verif.Multisig.C43_confirm_iff",
    "Verif.Multisig.C43_confirm_decides"
   ],
   "note": ""
  },
  {
   "property": "C44",
   "status": "proved",
   "theorems": [
    "Verif.Multisig.C44_delete_request_iff",
    "Verif.Multisig.C44_delete_request_effect",
    "Verif.Multisig.C44_deleted_after_cooldown",
    "Verif.Multisig2.C44_delete_request_iff",
    "Verif.Multisig2.C44_delete_request_effect",
    "Verif.Multisig2.C44_deleted_after_cooldown"
   ],
   "note": ""
  },
  {
   "property": "C45",
   "status": "partial",
   "theorems": [
    "Verif.Multisig.C45_refuted",
    "Verif.Multisig.C45_confirmations_were_authorised_partial",
    "Verif.Multisig.C45_deleted_key_loses_its_requests",
    "Verif.Multisig2.C45_refuted",
    "Verif.Multisig2.C45_deleted_member_loses_its_requests"
   ],
   "note": "false of the code, in multisig and multisig2: deleting a key (or member) removes its own requests but not the confirmations it gave to others' requests, which are still counted; refuted with runs; _partial: every counted key was authorised when it signed (multisig); for multisig2 C46 says each counted member was a member when confirming"
  },
  {
   "property": "C46",
   "status": "proved",
   "theorems": [
    "Verif.Multisig2.C46_only_members_act",
    "Verif.Multisig2.C46_enough_distinct_members"
   ],
   "note": ""
  },
  {
   "property": "C47",
   "status": "partial",
   "theorems": [
    "Verif.Multisig2.C47_duplicates_refuted",
    "Verif.Multisig2.C47_set_num_confirmations_refuted",
    "Verif.Multisig2.C47_threshold_reachable_partial",
    "Verif.Multisig2.C47_stuck_request_refuted"
   ],
   "note": "false of the code: new accepts duplicate members, SetNumConfirmations is unchecked, and a fully confirmed request can get stuck when the threshold is lowered; refuted with runs; _partial: holds from distinct members while no executed SetNumConfirmations exceeds the number of members; see C63, C64"
  },
  {
   "property": "C48",
   "status": "proved",
   "theorems": [
    "Verif.Multisig2.C48_bookkeeping",
    "Verif.Multisig2.C48_texts_distinct",
    "Verif.Multisig2.C48_limit_respected",
    "Verif.Multisig2.C48_add_request_iff",
    "Verif.Multisig2.C48_confirm_iff",
    "Verif.Multisig2.C48_confirm_decides"
   ],
   "note": ""
  },
  {
   "property": "C49",
   "status": "partial",
   "theorems": [
    "Verif.Multisig2.C49_refuted",
    "Verif.Multisig2.C49_member_keys_partial"
   ],
   "note": "false of the code: the method list names add_and_confirm_request, the method is add_request_and_confirm; _partial: the other three methods are permitted"
  },
  {
   "property": "C50",
   "status": "proved",
   "theorems": [
    "Verif.Multisig.C50_configuration_changes",
    "Verif.Multisig.C50_executed_request_takes_effect",
    "Verif.Multisig2.C50_configuration_changes",
    "Verif.Multisig2.C50_executed_request_takes_effect"
   ],
   "note": ""
  },
  {
   "property": "C51",
   "status": "proved",
   "theorems": [
    "Verif.PoolFactory.C51_deposits_accounted",
    "Verif.PoolFactory.C51_settled",
    "Verif.PoolFactory.C51_creation_resolves",
    "Verif.PoolFactory.C51_refund_never_fails"
   ],
   "note": "world of factory, created accounts and receipts; per-caller ledger. Runtime fact used: the deposit of a failed batch is back at the factory before its callback runs"
  },
  {
   "property": "C52",
   "status": "proved",
   "theorems": [
    "Verif.PoolFactory.C52_created_accounts",
    "Verif.PoolFactory.C52_whitelisted_by_factory",
    "Verif.PoolFactory.C52_one_creation_per_id",
    "Verif.PoolFactory.C52_accepted_iff",
    "Verif.PoolFactory.C52_created_as_asked",
    "Verif.PoolFactory.C52_created_once"
   ],
   "note": "includes what is in the whitelist contract model; factory account assumed to make only the calls of its contract"
  },
  {
   "property": "C53",
   "status": "proved",
   "theorems": [
    "Verif.LockupFactory.C53_lockup_new_accepts",
    "Verif.PoolFactory.C53_pool_new_accepts"
   ],
   "note": "pool: succeeds iff the account id is free and the runtime accepts the staking key; lockup: succeeds iff the account id is free. Gas is not modelled (abstract runtime failure)"
  },
  {
   "property": "C54",
   "status": "proved",
   "theorems": [
    "Verif.LockupFactory.C54_created_accounts",
    "Verif.LockupFactory.C54_id_inj",
    "Verif.LockupFactory.C54_one_account_per_owner",
    "Verif.LockupFactory.C54_id_valid",
    "Verif.LockupFactory.C54_created_as_asked",
    "Verif.LockupFactory.C54_views",
    "Verif.LockupFactory.C54_terminator",
    "Verif.LockupFactory.C54_accepted_iff",
    "Verif.LockupFactory.C54_deposits_accounted",
    "Verif.LockupFactory.C54_settled",
    "Verif.LockupFactory.C54_creation_resolves",
    "Verif.LockupFactory.C54_refund_never_fails"
   ],
   "note": "sha256 is an abstract function; validity of the id proved for the concrete NEAR account id rules and 32-byte hashes"
  },
  {
   "property": "C55",
   "status": "partial",
   "theorems": [
    "Verif.MultisigFactory.C55_refuted",
    "Verif.MultisigFactory.C55_never_returned",
    "Verif.MultisigFactory.C55_ledger_partial",
    "Verif.MultisigFactory.C55_accepted_partial",
    "Verif.MultisigFactory.C55_creation_partial"
   ],
   "note": "false of the code: a failed creation leaves the deposit at the factory, which has no way to return it (C55_refuted, C55_never_returned). Proved: rejected calls cost nothing, exact condition for success and what the created multisig is, exact ledger including the lost deposits"
  },
  {
   "property": "C56",
   "status": "proved",
   "theorems": [
    "Verif.WNear.C56_supply",
    "Verif.WNear.C56_backed"
   ],
   "note": "Proved for every history from initialization, with arbitrary answers of receivers, order of receipts, failed transfers and outside income. The fungible-token functions are those of near-contract-standards 3.1.0, modelled from its published source; they are not in /repo."
  },
  {
   "property": "C57",
   "status": "proved",
   "theorems": [
    "Verif.WNear.C57_deposit",
    "Verif.WNear.C57_withdraw",
    "Verif.WNear.C57_withdraw_zero",
    "Verif.WNear.C57_withdraw_paid",
    "Verif.WNear.C57_roundtrip"
   ],
   "note": "Proved on every reachable state; the code also accepts near_withdraw(0), although its doc comment asks for a positive amount. The arithmetic side conditions (supply plus deposit below 2^128) are those of u128. The fungible-token functions are those of near-contract-standards 3.1.0, modelled from its published source; they are not in /repo."
  },
  {
   "property": "C58",
   "status": "proved",
   "theorems": [
    "Verif.StateManip.C58_replace",
    "Verif.StateManip.C58_named_or_not",
    "Verif.StateManip.C58_clean",
    "Verif.StateManip.C58_undecodable",
    "Verif.StateManip.C58_undecodable_clean",
    "Verif.StateManip.C58_replace_then_clean"
   ],
   "note": "Base64 decoding and the host's length limits are parameters of the model; the theorems hold for every such decoder. JSON decoding is modelled by an optional argument list."
  },
  {
   "property": "C59",
   "status": "proved",
   "theorems": [
    "Verif.StakingPool.C59_stake_works"
   ],
   "note": ""
  },
  {
   "property": "C60",
   "status": "proved",
   "theorems": [
    "Verif.StakingPool.C60_stake_actions_are_covered"
   ],
   "note": ""
  },
  {
   "property": "C61",
   "status": "proved",
   "theorems": [
    "Verif.Lockup.C61_private_schedule_binding"
   ],
   "note": ""
  },
  {
   "property": "C62",
   "status": "proved",
   "theorems": [
    "Verif.Multisig.C62_removed_key_is_powerless"
   ],
   "note": ""
  },
  {
   "property": "C63",
   "status": "proved",
   "theorems": [
    "Verif.Multisig2.C63_members_execute_pending",
    "Verif.Multisig2.C63_members_execute_new"
   ],
   "note": ""
  },
  {
   "property": "C64",
   "status": "proved",
   "theorems": [
    "Verif.Multisig2.C64_locked_forever"
   ],
   "note": ""
  },
  {
   "property": "C65",
   "status": "proved",
   "theorems": [
    "Verif.Voting.C65_open_poll_accepts"
   ],
   "note": "under total stake < 2^127"
  },
  {
   "property": "C66",
   "status": "proved",
   "theorems": [
    "Verif.PoolFactory.C66_number_of_pools"
   ],
   "note": ""
  },
  {
   "property": "C67",
   "status": "proved",
   "theorems": [
    "Verif.WNear.C67_authority",
    "Verif.WNear.C67_callback_private"
   ],
   "note": "The fungible-token functions are those of near-contract-standards 3.1.0, modelled from its published source; they are not in /repo."
  },
  {
   "property": "C68",
   "status": "proved",
   "theorems": [
    "Verif.WNear.C68_transfer",
    "Verif.WNear.C68_settle",
    "Verif.WNear.C68_settled_once"
   ],
   "note": "The fungible-token functions are those of near-contract-standards 3.1.0, modelled from its published source; they are not in /repo."
  },
  {
   "property": "C69",
   "status": "proved",
   "theorems": [
    "Verif.WNear.C69_storage_balance",
    "Verif.WNear.C69_register",
    "Verif.WNear.C69_unregister",
    "Verif.WNear.C69_storage_withdraw",
    "Verif.WNear.C69_unregister_unknown"
   ],
   "note": "The fungible-token functions are those of near-contract-standards 3.1.0, modelled from its published source; they are not in /repo."
  },
  {
   "property": "C70",
   "status": "proved",
   "theorems": [
    "Verif.StakingPool.C70_stake_accurate",
    "Verif.StakingPool.C70_unstake_accurate"
   ],
   "note": ""
  },
  {
   "property": "C71",
   "status": "proved",
   "theorems": [
    "Verif.StakingPool.C71_effects_exact"
   ],
   "note": ""
  },
  {
   "property": "C72",
   "status": "proved",
   "theorems": [
    "Verif.StakingPool.C72_admin_calls_exact",
    "Verif.StakingPool.C72_settings_history",
    "Verif.StakingPool.C72_initial_settings",
    "Verif.StakingPool.C72_new_exact"
   ],
   "note": ""
  },
  {
   "property": "C73",
   "status": "proved",
   "theorems": [
    "Verif.StakingPool.C73_ping_first_is_neutral"
   ],
   "note": ""
  },
  {
   "property": "C74",
   "status": "proved",
   "theorems": [
    "Verif.Lockup.C74_pool_calls_exact",
    "Verif.Lockup.C74_select_exact",
    "Verif.Lockup.C74_unselect_exact",
    "Verif.Lockup.C74_vote_exact",
    "Verif.Lockup.C74_terminate_exact",
    "Verif.Lockup.C74_prepare_exact",
    "Verif.Lockup.C74_termination_withdraw_exact"
   ],
   "note": ""
  },
  {
   "property": "C75",
   "status": "proved",
   "theorems": [
    "Verif.Lockup.C75_known_deposit_changes",
    "Verif.Lockup.C75_answer_recorded",
    "Verif.Lockup.C75_known_deposit_backed"
   ],
   "note": "the deposit must not overflow u128; holdings, losses and honesty of pools as in C24"
  },
  {
   "property": "C76",
   "status": "proved",
   "theorems": [
    "Verif.Lockup.C76_balance_views",
    "Verif.Lockup.C76_liquid_is_transferable",
    "Verif.Lockup.C76_deficit_view"
   ],
   "note": ""
  },
  {
   "property": "C77",
   "status": "partial",
   "theorems": [
    "Verif.Lockup.C77_locked_vested_partial",
    "Verif.Lockup.C77_private_view_panics_refuted"
   ],
   "note": "false for a private (hashed) schedule: the locked amount ignores the unknown schedule, so after the release ended the subtraction underflows and the view panics (refuted with a run); _partial covers public schedules, terminations and no vesting"
  },
  {
   "property": "C78",
   "status": "proved",
   "theorems": [
    "Verif.Lockup.C78_new_exact"
   ],
   "note": ""
  },
  {
   "property": "C79",
   "status": "proved",
   "theorems": [
    "Verif.Lockup.C79_owner_recovers_everything",
    "Verif.Lockup.C79_owner_withdraws"
   ],
   "note": "the pool is assumed to answer (unit for unstake_all, the held amount, a payout, then zero)"
  },
  {
   "property": "C80",
   "status": "proved",
   "theorems": [
    "Verif.Multisig.C80_new_exact",
    "Verif.Multisig2.C80_new_exact"
   ],
   "note": ""
  },
  {
   "property": "C81",
   "status": "proved",
   "theorems": [
    "Verif.Multisig.C81_add_request_accepted",
    "Verif.Multisig.C81_add_request_effect",
    "Verif.Multisig.C81_add_and_confirm",
    "Verif.Multisig2.C81_add_request_accepted",
    "Verif.Multisig2.C81_add_request_effect",
    "Verif.Multisig2.C81_add_and_confirm"
   ],
   "note": ""
  },
  {
   "property": "C82",
   "status": "proved",
   "theorems": [
    "Verif.Multisig.C82_pending_persists",
    "Verif.Multisig2.C82_pending_persists"
   ],
   "note": ""
  },
  {
   "property": "C83",
   "status": "proved",
   "theorems": [
    "Verif.Multisig.C83_keys_execute_pending"
   ],
   "note": "the host is assumed to take the batch (enough balance and gas)"
  },
  {
   "property": "C84",
   "status": "proved",
   "theorems": [
    "Verif.Multisig.C84_locked_forever"
   ],
   "note": "a threshold above the number of keys is accepted by initialization, see C80"
  },
  {
   "property": "C85",
   "status": "proved",
   "theorems": [
    "Verif.Whitelist.C85_new_exact",
    "Verif.Voting.C85_new_exact",
    "Verif.WNear.C85_new_exact",
    "Verif.PoolFactory.C85_new_exact",
    "Verif.LockupFactory.C85_new_exact"
   ],
   "note": "that the new state is empty for wrapped NEAR includes the measured storage use, a parameter"
  },
  {
   "property": "C86",
   "status": "proved",
   "theorems": [
    "Verif.System.C86_locked_tokens_covered",
    "Verif.System.C86_known_deposit_is_at_the_pool"
   ],
   "note": "the pools answer with the staking pool model instead of an assumption; a whitelist that lists other contracts is excluded (Careful)"
  },
  {
   "property": "C87",
   "status": "proved",
   "theorems": [
    "Verif.System.C87_selected_pool_is_a_listed_pool"
   ],
   "note": "whoever may list pools is assumed to list only accounts with the staking pool contract; the factory does (C52, C53)"
  },
  {
   "property": "C88",
   "status": "proved",
   "theorems": [
    "Verif.System.C88_transfers_enabled_by_two_thirds"
   ],
   "note": "poll and lockup share the clock"
  },
  {
   "property": "C89",
   "status": "proved",
   "theorems": [
    "Verif.System.C89_never_stuck"
   ],
   "note": "resolves C26 for the real pools; a balance query lost for lack of gas is the one remaining cause (C26 refutation), which C103 excludes under the gas reserves"
  },
  {
   "property": "C90",
   "status": "proved",
   "theorems": [
    "Verif.StakingPool.C90_unstake_iff",
    "Verif.StakingPool.C90_only_deposits_take_tokens",
    "Verif.StakingPool.C90_deposit_exact",
    "Verif.StakingPool.C90_withdraw_exact",
    "Verif.StakingPool.C90_admin_iff"
   ],
   "note": ""
  },
  {
   "property": "C91",
   "status": "proved",
   "theorems": [
    "Verif.PoolFactory.C91_start_exact",
    "Verif.PoolFactory.C91_creation_exact",
    "Verif.PoolFactory.C91_success_exact",
    "Verif.PoolFactory.C91_whitelisting_exact",
    "Verif.PoolFactory.C91_created_pools_get_whitelisted"
   ],
   "note": ""
  },
  {
   "property": "C92",
   "status": "proved",
   "theorems": [
    "Verif.System.C92_owner_recovers_everything"
   ],
   "note": ""
  },
  {
   "property": "C93",
   "status": "proved",
   "theorems": [
    "Verif.System.C93_termination_completes"
   ],
   "note": ""
  },
  {
   "property": "C94",
   "status": "proved",
   "theorems": [
    "Verif.StakingPool.C94_reward_in_proportion",
    "Verif.StakingPool.C94_same_growth_for_all"
   ],
   "note": "two-sided with explicit rounding terms"
  },
  {
   "property": "C95",
   "status": "proved",
   "theorems": [
    "Verif.StakingPool.C95_slashed_pool_is_frozen",
    "Verif.StakingPool.C95_refill_revives"
   ],
   "note": "the loss itself is a runtime event added to the world; the freeze needs no reachability"
  },
  {
   "property": "C96",
   "status": "proved",
   "theorems": [
    "Verif.Voting.C96_two_thirds_decide"
   ],
   "note": "under total stake < 2^127"
  },
  {
   "property": "C97",
   "status": "proved",
   "theorems": [
    "Verif.Multisig.C97_multisig_keys_stem_from_requests",
    "Verif.Multisig.C97_multisig_no_full_access",
    "Verif.Multisig2.C97_keys_stem_from_requests",
    "Verif.Multisig2.C97_no_full_access"
   ],
   "note": "replacing the code of the account by a request is outside the model (treated as failing)"
  },
  {
   "property": "C98",
   "status": "proved",
   "theorems": [
    "Verif.Multisig2.C98_keys_in_step",
    "Verif.Multisig2.C98_mixed_request_parts_them",
    "Verif.Multisig2.C98_member_key_signs"
   ],
   "note": "the discipline is a hypothesis; that it is needed is a theorem (C98_mixed_request_parts_them)"
  },
  {
   "property": "C99",
   "status": "proved",
   "theorems": [
    "Verif.MultisigFactory.C99_factory_wallet_locked",
    "Verif.Multisig2.C99_duplicate_key_locks"
   ],
   "note": "also through the factory (C99_factory_wallet_locked)"
  },
  {
   "property": "C100",
   "status": "proved",
   "theorems": [
    "Verif.System.C100_factory_is_careful",
    "Verif.System.C100_listed_pools_were_asked_for",
    "Verif.System.C100_selected_pool_was_asked_for",
    "Verif.System.C100_locked_tokens_covered"
   ],
   "note": "the accounts that already exist and the pools listed when the lockup is created are part of the start; C86 to C93 apply to the joint world through C100_factory_is_careful"
  },
  {
   "property": "C101",
   "status": "proved",
   "theorems": [
    "Verif.System.C101_select_decided_by_whitelist",
    "Verif.System.C101_new_pool_can_be_selected"
   ],
   "note": "the seven receipts are run without anything in between; C91 and C74 describe each of them in any interleaving"
  },
  {
   "property": "C102",
   "status": "proved",
   "theorems": [
    "Verif.Lockup.C102_storage_reserve_stays",
    "Verif.StakingPool.C102_pool_keeps_initial_balance",
    "Verif.System.C102_reserve_on_account"
   ],
   "note": "for pools under at most 10^12 roundings as in C05; how much storage costs is not modelled"
  },
  {
   "property": "C103",
   "status": "proved",
   "theorems": [
    "Verif.System.C103_gas_suffices",
    "Verif.System.C103_documented_gas",
    "Verif.System.C103_receipt_without_gas",
    "Verif.System.C103_stake_without_gas",
    "Verif.System.C103_only_calls_run_out",
    "Verif.System.C103_never_stuck_with_gas",
    "Verif.System.C103_factory_reserves"
   ],
   "note": "that each method burns at most 25 Tgas is the hypothesis (the reserve of lockup/src/gas.rs); the gas burnt is not computed from the code"
  },
  {
   "property": "C104",
   "status": "proved",
   "theorems": [
    "Verif.StakingPool.C104_deposit_and_stake_iff",
    "Verif.System.C104_operation_exact",
    "Verif.System.C104_deposit_arrives",
    "Verif.System.C104_stake_arrives",
    "Verif.System.C104_refresh_exact"
   ],
   "note": "the three steps run without anything in between; acceptance by the pool under the bounds of C17 (Bounded)"
  },
  {
   "property": "C105",
   "status": "proved",
   "theorems": [
    "Verif.System.C105_poll_result_enables",
    "Verif.System.C105_owner_takes_over",
    "Verif.System.C105_whole_way_out"
   ],
   "note": "assumptions on the pool as in C92 (bounds of C17, the unlocked tokens are liquid after four epochs); a public vesting schedule must be valid (cf. C22); the steps of the owner after the wait run without anything in between"
  },
  {
   "property": "C106",
   "status": "proved",
   "theorems": [
    "Verif.Multisig.C106_add_key",
    "Verif.Multisig.C106_delete_key",
    "Verif.Multisig2.C106_add_member",
    "Verif.Multisig2.C106_delete_member"
   ],
   "note": "the transactions of the key holders run without anything in between and the host takes the batches; the proposer must have room for one more request (C43, C48)"
  },
  {
   "property": "C107",
   "status": "proved",
   "theorems": [
    "Verif.System.C107_pool_vote_is_the_owners",
    "Verif.System.C107_pool_vote_stands",
    "Verif.System.C107_owner_votes",
    "Verif.System.C107_transfers_enabled_by_pool_owners"
   ],
   "note": "an account that runs the staking pool contract has no access keys; the receipt of a vote may arrive late, in any order, or fail; acceptance by an open poll under the bound of C65 (twice the total stake fits 128 bits)"
  },
  {
   "property": "C108",
   "status": "proved",
   "theorems": [
    "Verif.Wallet.C108_wallet_acts_as_confirmed",
    "Verif.Wallet.C108_requests_or_keys",
    "Verif.Wallet.C108_members_make_it_act",
    "Verif.Wallet.C108_lockup_pays_as_confirmed",
    "Verif.Wallet.C108_pool_as_confirmed"
   ],
   "note": "the tokens of the wallet are not modelled (a batch it cannot pay fails in the call that creates it: the host's answer is arbitrary); how method names and arguments are understood is a parameter; the last two theorems need that the wallet gave out keys for calls of itself only"
  },
  {
   "property": "C109",
   "status": "proved",
   "theorems": [
    "Verif.System.C109_rewards_are_the_owners",
    "Verif.System.C109_owner_takes_rewards"
   ],
   "note": "the pool must be below 2^120 yocto and 10^12 roundings (StakingPool.Bounded) and hold x unlocked at the end of the wait; the lockup was created with at least the storage reserve; sums below 2^128"
  },
  {
   "property": "C110",
   "status": "proved",
   "theorems": [
    "Verif.StakingPool.C110_rewards_compound",
    "Verif.StakingPool.C110_rewards_found"
   ],
   "note": ""
  },
  {
   "property": "C111",
   "status": "proved",
   "theorems": [
    "Verif.Multisig.C111_requests_are_rationed",
    "Verif.Multisig2.C111_requests_are_rationed",
    "Verif.Multisig2.C111_pending_bounded"
   ],
   "note": "Accepted requests are counted; a rejected call also burns gas of the account, which is not modelled. The bound on all pending requests is for multisig2, where the contract knows its members."
  },
  {
   "property": "C112",
   "status": "proved",
   "theorems": [
    "Verif.LockupFactory.C112_agreed_schedule",
    "Verif.LockupFactory.C112_paid_out",
    "Verif.LockupFactory.C112_only_the_parties"
   ],
   "note": "For orders with a public schedule (start ≤ cliff ≤ end, start < end) or without vesting; orders with a schedule hash are covered by C20 and C27 of the lockup itself. The end of the release and the time must fit in 64 bits, as in C20."
  },
  {
   "property": "C113",
   "status": "proved",
   "theorems": [
    "Verif.StakingPool.C113_no_profit_without_rewards",
    "Verif.StakingPool.C113_one_account",
    "Verif.StakingPool.C113_from_the_start"
   ],
   "note": "The balances at the start are the rounded ones shown by the views; for a group with k > 1 stakers the bound has k - 1 yocto more for the fractions not shown. Validators are not slashed (as everywhere in the pool model)."
  },
  {
   "property": "C114",
   "status": "proved",
   "theorems": [
    "Verif.StakingPool.C114_due_tokens_are_liquid",
    "Verif.StakingPool.C114_everybody_due_is_paid",
    "Verif.StakingPool.C114_four_epochs_suffice"
   ],
   "note": "Assumptions about the runtime are explicit hypotheses: GivenBack for the first two theorems; the third derives it from Orderly (stake actions in order, with success, at most one epoch late) and Unlocks (given back three epochs after a reduction). Up to 10^12 stake/unstake operations (Bounded). Failed stake actions are covered by the first two theorems only."
  },
  {
   "property": "C115",
   "status": "proved",
   "theorems": [
    "Verif.System.C115_owner_out_after_four_epochs",
    "Verif.System.C115_whole_way_out",
    "Verif.System.C115_termination_after_four_epochs",
    "Verif.System.C115_rewards_after_four_epochs"
   ],
   "note": "C92, C105, C93 and C109 with the assumption on the pool's liquid balance replaced by the two rules of the runtime (RuntimeRules) on the history that the system history means for the pool (poolHist). Slashing is excluded by the model of the pool's account. Bounded: up to 10^12 stake/unstake operations at the pool."
  },
  {
   "property": "C116",
   "status": "proved",
   "theorems": [
    "Verif.PoolFactory.C116_settings_as_ordered",
    "Verif.PoolFactory.C116_deposit_stays",
    "Verif.PoolFactory.C116_delegators_are_paid"
   ],
   "note": "Composition of the factory world (every created account comes from an accepted call, C52) with the histories of the staking pool (C03, C72, C102, C113, C114). The claim about the account holding the deposit is for up to 10^12 stake/unstake operations; slashing is excluded by the model of the pool's account."
  },
  {
   "property": "C117",
   "status": "proved",
   "theorems": [
    "Verif.MultisigFactory.C117_as_ordered",
    "Verif.MultisigFactory.C117_ordered_members_decide",
    "Verif.MultisigFactory.C117_nobody_else",
    "Verif.MultisigFactory.C117_members_can_spend"
   ],
   "note": "Composition of the factory world (every created account comes from an accepted call) with the histories of multisig2 with access keys (C42, C46, C50, C97). Tokens of the wallet are not modelled after the creation (whether the host takes a payment is a parameter). A wallet whose order names a key twice gets no keys at all (C99), which is why the last part asks for distinct keys."
  },
  {
   "property": "C118",
   "status": "proved",
   "theorems": [
    "Verif.MultisigFactory.C118_ordered_wallet",
    "Verif.MultisigFactory.C118_members_can_pay",
    "Verif.Multisig.C118_multisig_nothing_gets_lost",
    "Verif.Multisig.C118_multisig_tokens_leave_only_by_requests",
    "Verif.Multisig.C118_multisig_keys_can_pay",
    "Verif.Multisig2.C118_nothing_gets_lost",
    "Verif.Multisig2.C118_tokens_leave_only_by_requests"
   ],
   "note": "Gas fees and storage staking are not modelled: the balance is what transfers and deposits make of it. A batch the account cannot pay for is refused (the event does not happen)."
  },
  {
   "property": "C119",
   "status": "proved",
   "theorems": [
    "Verif.WNear.C119_everybody_can_leave",
    "Verif.WNear.C119_everybody_is_paid",
    "Verif.WNear.C119_nothing_is_left_behind"
   ],
   "note": "The contract account itself can be registered by anybody and then holds tokens nobody can unwrap; the theorems are about other accounts. Gas fees and storage staking of the host are not modelled."
  },
  {
   "property": "C120",
   "status": "proved",
   "theorems": [
    "Verif.WNear.C120_idle_account",
    "Verif.WNear.C120_contract_account",
    "Verif.WNear.C120_contract_can_receive"
   ],
   "note": "The fungible-token functions are modelled after near-contract-standards 3.1.0, whose source is not in /repo."
  },
  {
   "property": "C121",
   "status": "proved",
   "theorems": [
    "Verif.WNear.C121_no_profit",
    "Verif.WNear.C121_paid_at_most"
   ],
   "note": "The fungible-token functions are modelled after near-contract-standards 3.1.0, whose source is not in /repo. Gas refunds are not modelled."
  }
 ]
}