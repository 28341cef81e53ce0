# Axioms of the property theorems

Output of `#print axioms` for every theorem named in `MANIFEST.json` (343 theorems).

| property | theorem | axioms |
|---|---|---|
| C01 | `Verif.StakingPool.C01_staked_balance_never_decreases` | propext, Classical.choice, Quot.sound |
| C01 | `Verif.StakingPool.C01_share_price_never_decreases` | propext, Classical.choice, Quot.sound |
| C02 | `Verif.StakingPool.C02_share_price_at_least_one` | propext, Classical.choice, Quot.sound |
| C02 | `Verif.StakingPool.C02_exactly_the_fund_is_dead` | propext, Classical.choice, Quot.sound |
| C03 | `Verif.StakingPool.C03_no_account_loses` | propext, Classical.choice, Quot.sound |
| C03 | `Verif.StakingPool.C03_position_value_monotone` | propext, Classical.choice, Quot.sound |
| C03 | `Verif.StakingPool.C03_total_balance_view` | propext, Classical.choice, Quot.sound |
| C03 | `Verif.StakingPool.C03_ledger` | propext, Quot.sound |
| C04 | `Verif.StakingPool.C04_staked_can_be_unstaked` | propext, Classical.choice, Quot.sound |
| C05 | `Verif.StakingPool.C05_unstake_all_exact` | propext, Classical.choice, Quot.sound |
| C06 | `Verif.StakingPool.C06_solvency` | propext, Classical.choice, Quot.sound |
| C06 | `Verif.StakingPool.C06_rounding_favours_delegators` | propext, Classical.choice, Quot.sound |
| C07 | `Verif.StakingPool.C07_withdraw_iff` | propext, Classical.choice, Quot.sound |
| C08 | `Verif.StakingPool.C08_unstaked_tokens_locked_four_epochs` | propext, Classical.choice, Quot.sound |
| C08 | `Verif.StakingPool.C08_available_after_four_epochs` | propext, Classical.choice, Quot.sound |
| C09 | `Verif.StakingPool.C09_only_the_caller_changes` | propext, Classical.choice, Quot.sound |
| C09 | `Verif.StakingPool.C09_funds_cannot_be_frozen` | propext, Classical.choice, Quot.sound |
| C10 | `Verif.StakingPool.C10_owner_cut_bounded` | propext, Classical.choice, Quot.sound |
| C11 | `Verif.StakingPool.C11_second_ping_does_nothing` | propext, Classical.choice, Quot.sound |
| C11 | `Verif.StakingPool.C11_rewards_distributed_exactly_once` | propext, Classical.choice, Quot.sound |
| C11 | `Verif.StakingPool.C11_distribution_is_complete` | propext, Classical.choice, Quot.sound |
| C12 | `Verif.StakingPool.C12_paused_pool_does_not_stake` | propext, Classical.choice, Quot.sound |
| C12 | `Verif.StakingPool.C12_pause_unstakes_everything` | propext, Classical.choice, Quot.sound |
| C12 | `Verif.StakingPool.C12_only_owner_changes_pause` | propext, Classical.choice, Quot.sound |
| C12 | `Verif.StakingPool.C12_no_new_stake_while_paused` | propext, Classical.choice, Quot.sound |
| C13 | `Verif.StakingPool.C13_callback_is_private` | propext, Quot.sound |
| C13 | `Verif.StakingPool.C13_failed_stake_is_unstaked` | propext, Quot.sound |
| C13 | `Verif.StakingPool.C13_key_valid` | propext, Classical.choice, Quot.sound |
| C13 | `Verif.StakingPool.C13_stake_action_executed` | propext, Quot.sound |
| C13 | `Verif.StakingPool.C13_report_handled` | propext, Quot.sound |
| C14 | `Verif.StakingPool.C14_admin_methods_are_owner_only` | propext, Quot.sound |
| C14 | `Verif.StakingPool.C14_owner_constant_and_fee_valid` | propext, Classical.choice, Quot.sound |
| C15 | `Verif.StakingPool.C15_listing_complete` | propext, Classical.choice, Quot.sound |
| C16 | `Verif.StakingPool.C16_share_accounting_exact` | propext, Classical.choice, Quot.sound |
| C17 | `Verif.StakingPool.C17_ping_and_deposit_never_panic` | propext, Classical.choice, Quot.sound |
| C18 | `Verif.StakingPool.C18_deposit_and_stake` | propext, Classical.choice, Quot.sound |
| C18 | `Verif.StakingPool.C18_all_variants` | propext, Classical.choice, Quot.sound |
| C19 | `Verif.Lockup.C19_locked_amount_monotone` | propext, Classical.choice, Quot.sound |
| C19 | `Verif.Lockup.C19_locked_amount_end` | propext, Classical.choice, Quot.sound |
| C19 | `Verif.Lockup.C19_locked_amount_history` | propext, Classical.choice, Quot.sound |
| C20 | `Verif.Lockup.C20_locked_amount_is_documented` | propext, Classical.choice, Quot.sound |
| C20 | `Verif.Lockup.C20_never_more_than_documented` | propext, Classical.choice, Quot.sound |
| C21 | `Verif.Lockup.C21_vesting_schedule` | propext, Classical.choice, Quot.sound |
| C22 | `Verif.Lockup.C22_invalid_schedule_accepted_refuted` | propext |
| C22 | `Verif.Lockup.C22_valid_schedule_is_safe_partial` | propext, Classical.choice, Quot.sound |
| C23 | `Verif.Lockup.C23_transfer_iff` | propext, Quot.sound |
| C23 | `Verif.Lockup.C23_owner_cannot_transfer_locked` | propext, Quot.sound |
| C24 | `Verif.Lockup.C24_locked_tokens_covered` | propext, Classical.choice, Quot.sound |
| C24 | `Verif.Lockup.C24_quiet_world` | propext, Classical.choice, Quot.sound |
| C24 | `Verif.Lockup.C24_private_schedule_not_covered` | propext, Classical.choice, Quot.sound |
| C25 | `Verif.Lockup.C25_one_pool_operation` | propext, Classical.choice, Quot.sound |
| C26 | `Verif.Lockup.C26_failing_view_blocks_forever_refuted` | propext, Classical.choice, Quot.sound |
| C26 | `Verif.Lockup.C26_returns_to_idle_partial` | propext, Classical.choice, Quot.sound |
| C27 | `Verif.Lockup.C27_owner_blocked_during_termination` | propext, Quot.sound |
| C28 | `Verif.Lockup.C28_foundation_receives_unvested` | propext, Classical.choice, Quot.sound |
| C28 | `Verif.Lockup.C28_fixed_amount_is_unvested` | propext, Classical.choice, Quot.sound |
| C29 | `Verif.Lockup.C29_termination_completes` | propext, Classical.choice, Quot.sound |
| C30 | `Verif.Lockup.C30_selected_pool_is_whitelisted` | propext, Classical.choice, Quot.sound |
| C30 | `Verif.Lockup.C30_selection_not_overwritten` | propext, Quot.sound |
| C31 | `Verif.Lockup.C31_enabled_forever` | propext, Quot.sound |
| C31 | `Verif.Lockup.C31_enabled_only_by_poll` | propext, Classical.choice, Quot.sound |
| C32 | `Verif.Lockup.C32_add_full_access_key_iff` | propext, Quot.sound |
| C32 | `Verif.Lockup.C32_key_only_when_nothing_locked` | propext, Classical.choice, Quot.sound |
| C33 | `Verif.Lockup.C33_authorization` | propext, Quot.sound |
| C33 | `Verif.Lockup.C33_roles_are_fixed` | propext, Quot.sound |
| C33 | `Verif.Lockup.C33_every_change_is_authorized` | propext, Quot.sound |
| C34 | `Verif.Lockup.C34_termination_fixes_unvested` | propext, Classical.choice, Quot.sound |
| C34 | `Verif.Lockup.C34_payment_does_not_lock_more` | propext, Classical.choice, Quot.sound |
| C34 | `Verif.Lockup.C34_locked_after_termination` | propext, Classical.choice, Quot.sound |
| C35 | `Verif.Voting.C35_decided_iff_two_thirds` | propext, Classical.choice, Quot.sound |
| C35 | `Verif.Voting.C35_result_has_a_deciding_call` | propext, Classical.choice, Quot.sound |
| C36 | `Verif.Voting.C36_result_is_final` | propext, Classical.choice, Quot.sound |
| C37 | `Verif.Voting.C37_total_is_the_sum` | propext, Classical.choice, Quot.sound |
| C37 | `Verif.Voting.C37_stakes_of_last_update` | propext, Classical.choice, Quot.sound |
| C38 | `Verif.Voting.C38_counted_iff` | propext, Classical.choice, Quot.sound |
| C38 | `Verif.Voting.C38_others_cannot_touch` | propext, Classical.choice, Quot.sound |
| C38 | `Verif.Voting.C38_deciding_withdrawal_is_ignored` | propext, Classical.choice, Quot.sound |
| C39 | `Verif.Whitelist.C39_refines_two_sets` | propext, Quot.sound |
| C39 | `Verif.Whitelist.C39_pool_listed_iff` | propext, Quot.sound |
| C39 | `Verif.Whitelist.C39_factory_listed_iff` | propext, Quot.sound |
| C39 | `Verif.Whitelist.C39_views_total` | propext, Quot.sound |
| C40 | `Verif.Whitelist.C40_success_iff` | propext, Quot.sound |
| C40 | `Verif.Whitelist.C40_pool_was_authorized` | propext, Quot.sound |
| C40 | `Verif.Whitelist.C40_removed_factory_is_powerless` | propext, Quot.sound |
| C41 | `Verif.Multisig.C41_enough_distinct_confirmations` | propext, Classical.choice, Quot.sound |
| C42 | `Verif.Multisig.C42_ids_never_reused` | propext, Quot.sound |
| C42 | `Verif.Multisig.C42_executed_at_most_once` | propext, Classical.choice, Quot.sound |
| C42 | `Verif.Multisig.C42_executed_as_requested` | propext, Classical.choice, Quot.sound |
| C42 | `Verif.Multisig.C42_deleted_never_executed` | propext, Classical.choice, Quot.sound |
| C42 | `Verif.Multisig.C42_executed_is_gone` | propext, Classical.choice, Quot.sound |
| C42 | `Verif.Multisig2.C42_ids_never_reused` | propext, Quot.sound |
| C42 | `Verif.Multisig2.C42_executed_at_most_once` | propext, Classical.choice, Quot.sound |
| C42 | `Verif.Multisig2.C42_executed_as_requested` | propext, Classical.choice, Quot.sound |
| C42 | `Verif.Multisig2.C42_deleted_never_executed` | propext, Classical.choice, Quot.sound |
| C42 | `Verif.Multisig2.C42_executed_is_gone` | propext, Classical.choice, Quot.sound |
| C43 | `Verif.Multisig.C43_bookkeeping` | propext, Classical.choice, Quot.sound |
| C43 | `Verif.Multisig.C43_limit_respected` | propext, Classical.choice, Quot.sound |
| C43 | `Verif.Multisig.C43_add_request_iff` | propext, Classical.choice, Quot.sound |
| C43 | `Verif.Multisig.C43_confirm_iff` | propext, Classical.choice, Quot.sound |
| C43 | `Verif.Multisig.C43_confirm_decides` | propext, Classical.choice, Quot.sound |
| C44 | `Verif.Multisig.C44_delete_request_iff` | propext, Classical.choice, Quot.sound |
| C44 | `Verif.Multisig.C44_delete_request_effect` | propext, Classical.choice, Quot.sound |
| C44 | `Verif.Multisig.C44_deleted_after_cooldown` | propext, Quot.sound |
| C44 | `Verif.Multisig2.C44_delete_request_iff` | propext, Classical.choice, Quot.sound |
| C44 | `Verif.Multisig2.C44_delete_request_effect` | propext, Classical.choice, Quot.sound |
| C44 | `Verif.Multisig2.C44_deleted_after_cooldown` | propext, Quot.sound |
| C45 | `Verif.Multisig.C45_refuted` | propext, Classical.choice, Quot.sound |
| C45 | `Verif.Multisig.C45_confirmations_were_authorised_partial` | propext, Classical.choice, Quot.sound |
| C45 | `Verif.Multisig.C45_deleted_key_loses_its_requests` | propext, Classical.choice, Quot.sound |
| C45 | `Verif.Multisig2.C45_refuted` | propext, Classical.choice, Quot.sound |
| C45 | `Verif.Multisig2.C45_deleted_member_loses_its_requests` | propext, Classical.choice, Quot.sound |
| C46 | `Verif.Multisig2.C46_only_members_act` | propext, Quot.sound |
| C46 | `Verif.Multisig2.C46_enough_distinct_members` | propext, Classical.choice, Quot.sound |
| C47 | `Verif.Multisig2.C47_duplicates_refuted` | propext, Quot.sound |
| C47 | `Verif.Multisig2.C47_set_num_confirmations_refuted` | propext, Quot.sound |
| C47 | `Verif.Multisig2.C47_threshold_reachable_partial` | propext, Classical.choice, Quot.sound |
| C47 | `Verif.Multisig2.C47_stuck_request_refuted` | propext, Classical.choice, Quot.sound |
| C48 | `Verif.Multisig2.C48_bookkeeping` | propext, Classical.choice, Quot.sound |
| C48 | `Verif.Multisig2.C48_texts_distinct` | propext, Classical.choice, Quot.sound |
| C48 | `Verif.Multisig2.C48_limit_respected` | propext, Classical.choice, Quot.sound |
| C48 | `Verif.Multisig2.C48_add_request_iff` | propext, Classical.choice, Quot.sound |
| C48 | `Verif.Multisig2.C48_confirm_iff` | propext, Classical.choice, Quot.sound |
| C48 | `Verif.Multisig2.C48_confirm_decides` | propext, Classical.choice, Quot.sound |
| C49 | `Verif.Multisig2.C49_refuted` | propext, Classical.choice, Quot.sound |
| C49 | `Verif.Multisig2.C49_member_keys_partial` | propext, Classical.choice, Quot.sound |
| C50 | `Verif.Multisig.C50_configuration_changes` | propext, Classical.choice, Quot.sound |
| C50 | `Verif.Multisig.C50_executed_request_takes_effect` | propext, Classical.choice, Quot.sound |
| C50 | `Verif.Multisig2.C50_configuration_changes` | propext, Classical.choice, Quot.sound |
| C50 | `Verif.Multisig2.C50_executed_request_takes_effect` | propext, Classical.choice, Quot.sound |
| C51 | `Verif.PoolFactory.C51_deposits_accounted` | propext, Classical.choice, Quot.sound |
| C51 | `Verif.PoolFactory.C51_settled` | propext, Classical.choice, Quot.sound |
| C51 | `Verif.PoolFactory.C51_creation_resolves` | propext, Classical.choice, Quot.sound |
| C51 | `Verif.PoolFactory.C51_refund_never_fails` | propext, Classical.choice, Quot.sound |
| C52 | `Verif.PoolFactory.C52_created_accounts` | propext, Classical.choice, Quot.sound |
| C52 | `Verif.PoolFactory.C52_whitelisted_by_factory` | propext, Classical.choice, Quot.sound |
| C52 | `Verif.PoolFactory.C52_one_creation_per_id` | propext, Classical.choice, Quot.sound |
| C52 | `Verif.PoolFactory.C52_accepted_iff` | propext, Classical.choice, Quot.sound |
| C52 | `Verif.PoolFactory.C52_created_as_asked` | propext, Classical.choice, Quot.sound |
| C52 | `Verif.PoolFactory.C52_created_once` | propext, Classical.choice, Quot.sound |
| C53 | `Verif.LockupFactory.C53_lockup_new_accepts` | propext, Classical.choice, Quot.sound |
| C53 | `Verif.PoolFactory.C53_pool_new_accepts` | propext, Classical.choice, Quot.sound |
| C54 | `Verif.LockupFactory.C54_created_accounts` | propext, Classical.choice, Quot.sound |
| C54 | `Verif.LockupFactory.C54_id_inj` | propext, Classical.choice, Quot.sound |
| C54 | `Verif.LockupFactory.C54_one_account_per_owner` | propext, Classical.choice, Quot.sound |
| C54 | `Verif.LockupFactory.C54_id_valid` | propext, Classical.choice, Quot.sound |
| C54 | `Verif.LockupFactory.C54_created_as_asked` | propext, Classical.choice, Quot.sound |
| C54 | `Verif.LockupFactory.C54_views` | propext, Classical.choice, Quot.sound |
| C54 | `Verif.LockupFactory.C54_terminator` | propext, Classical.choice, Quot.sound |
| C54 | `Verif.LockupFactory.C54_accepted_iff` | propext, Classical.choice, Quot.sound |
| C54 | `Verif.LockupFactory.C54_deposits_accounted` | propext, Classical.choice, Quot.sound |
| C54 | `Verif.LockupFactory.C54_settled` | propext, Classical.choice, Quot.sound |
| C54 | `Verif.LockupFactory.C54_creation_resolves` | propext, Classical.choice, Quot.sound |
| C54 | `Verif.LockupFactory.C54_refund_never_fails` | propext, Classical.choice, Quot.sound |
| C55 | `Verif.MultisigFactory.C55_refuted` | propext, Classical.choice, Quot.sound |
| C55 | `Verif.MultisigFactory.C55_never_returned` | propext, Classical.choice, Quot.sound |
| C55 | `Verif.MultisigFactory.C55_ledger_partial` | propext, Classical.choice, Quot.sound |
| C55 | `Verif.MultisigFactory.C55_accepted_partial` | propext, Classical.choice, Quot.sound |
| C55 | `Verif.MultisigFactory.C55_creation_partial` | propext, Classical.choice, Quot.sound |
| C56 | `Verif.WNear.C56_supply` | propext, Classical.choice, Quot.sound |
| C56 | `Verif.WNear.C56_backed` | propext, Classical.choice, Quot.sound |
| C57 | `Verif.WNear.C57_deposit` | propext, Classical.choice, Quot.sound |
| C57 | `Verif.WNear.C57_withdraw` | propext, Classical.choice, Quot.sound |
| C57 | `Verif.WNear.C57_withdraw_zero` | propext, Classical.choice, Quot.sound |
| C57 | `Verif.WNear.C57_withdraw_paid` | propext, Classical.choice, Quot.sound |
| C57 | `Verif.WNear.C57_roundtrip` | propext, Classical.choice, Quot.sound |
| C58 | `Verif.StateManip.C58_replace` | propext, Quot.sound |
| C58 | `Verif.StateManip.C58_named_or_not` | propext, Quot.sound |
| C58 | `Verif.StateManip.C58_clean` | propext, Quot.sound |
| C58 | `Verif.StateManip.C58_undecodable` | propext, Quot.sound |
| C58 | `Verif.StateManip.C58_undecodable_clean` | propext, Quot.sound |
| C58 | `Verif.StateManip.C58_replace_then_clean` | propext, Quot.sound |
| C59 | `Verif.StakingPool.C59_stake_works` | propext, Classical.choice, Quot.sound |
| C60 | `Verif.StakingPool.C60_stake_actions_are_covered` | propext, Classical.choice, Quot.sound |
| C61 | `Verif.Lockup.C61_private_schedule_binding` | propext, Classical.choice, Quot.sound |
| C62 | `Verif.Multisig.C62_removed_key_is_powerless` | propext, Classical.choice, Quot.sound |
| C63 | `Verif.Multisig2.C63_members_execute_pending` | propext, Classical.choice, Quot.sound |
| C63 | `Verif.Multisig2.C63_members_execute_new` | propext, Classical.choice, Quot.sound |
| C64 | `Verif.Multisig2.C64_locked_forever` | propext, Classical.choice, Quot.sound |
| C65 | `Verif.Voting.C65_open_poll_accepts` | propext, Classical.choice, Quot.sound |
| C66 | `Verif.PoolFactory.C66_number_of_pools` | propext, Classical.choice, Quot.sound |
| C67 | `Verif.WNear.C67_authority` | propext, Classical.choice, Quot.sound |
| C67 | `Verif.WNear.C67_callback_private` | propext, Quot.sound |
| C68 | `Verif.WNear.C68_transfer` | propext, Classical.choice, Quot.sound |
| C68 | `Verif.WNear.C68_settle` | propext, Classical.choice, Quot.sound |
| C68 | `Verif.WNear.C68_settled_once` | propext, Classical.choice, Quot.sound |
| C69 | `Verif.WNear.C69_storage_balance` | propext |
| C69 | `Verif.WNear.C69_register` | propext, Quot.sound |
| C69 | `Verif.WNear.C69_unregister` | propext, Classical.choice, Quot.sound |
| C69 | `Verif.WNear.C69_storage_withdraw` | propext, Quot.sound |
| C69 | `Verif.WNear.C69_unregister_unknown` | propext, Quot.sound |
| C70 | `Verif.StakingPool.C70_stake_accurate` | propext, Classical.choice, Quot.sound |
| C70 | `Verif.StakingPool.C70_unstake_accurate` | propext, Classical.choice, Quot.sound |
| C71 | `Verif.StakingPool.C71_effects_exact` | propext, Classical.choice, Quot.sound |
| C72 | `Verif.StakingPool.C72_admin_calls_exact` | propext, Classical.choice, Quot.sound |
| C72 | `Verif.StakingPool.C72_settings_history` | propext, Classical.choice, Quot.sound |
| C72 | `Verif.StakingPool.C72_initial_settings` | propext, Quot.sound |
| C72 | `Verif.StakingPool.C72_new_exact` | propext, Quot.sound |
| C73 | `Verif.StakingPool.C73_ping_first_is_neutral` | propext, Classical.choice, Quot.sound |
| C74 | `Verif.Lockup.C74_pool_calls_exact` | propext, Classical.choice, Quot.sound |
| C74 | `Verif.Lockup.C74_select_exact` | propext, Quot.sound |
| C74 | `Verif.Lockup.C74_unselect_exact` | propext, Quot.sound |
| C74 | `Verif.Lockup.C74_vote_exact` | propext, Quot.sound |
| C74 | `Verif.Lockup.C74_terminate_exact` | propext, Classical.choice, Quot.sound |
| C74 | `Verif.Lockup.C74_prepare_exact` | propext, Quot.sound |
| C74 | `Verif.Lockup.C74_termination_withdraw_exact` | propext, Quot.sound |
| C75 | `Verif.Lockup.C75_known_deposit_changes` | propext, Quot.sound |
| C75 | `Verif.Lockup.C75_answer_recorded` | propext, Classical.choice, Quot.sound |
| C75 | `Verif.Lockup.C75_known_deposit_backed` | propext, Classical.choice, Quot.sound |
| C76 | `Verif.Lockup.C76_balance_views` | propext, Classical.choice, Quot.sound |
| C76 | `Verif.Lockup.C76_liquid_is_transferable` | propext, Quot.sound |
| C76 | `Verif.Lockup.C76_deficit_view` | propext, Quot.sound |
| C77 | `Verif.Lockup.C77_locked_vested_partial` | propext, Classical.choice, Quot.sound |
| C77 | `Verif.Lockup.C77_private_view_panics_refuted` | propext, Classical.choice, Quot.sound |
| C78 | `Verif.Lockup.C78_new_exact` | propext, Quot.sound |
| C79 | `Verif.Lockup.C79_owner_recovers_everything` | propext, Classical.choice, Quot.sound |
| C79 | `Verif.Lockup.C79_owner_withdraws` | propext, Classical.choice, Quot.sound |
| C80 | `Verif.Multisig.C80_new_exact` | propext, Quot.sound |
| C80 | `Verif.Multisig2.C80_new_exact` | propext, Quot.sound |
| C81 | `Verif.Multisig.C81_add_request_accepted` | propext, Classical.choice, Quot.sound |
| C81 | `Verif.Multisig.C81_add_request_effect` | propext, Quot.sound |
| C81 | `Verif.Multisig.C81_add_and_confirm` | propext, Quot.sound |
| C81 | `Verif.Multisig2.C81_add_request_accepted` | propext, Classical.choice, Quot.sound |
| C81 | `Verif.Multisig2.C81_add_request_effect` | propext, Classical.choice, Quot.sound |
| C81 | `Verif.Multisig2.C81_add_and_confirm` | propext, Quot.sound |
| C82 | `Verif.Multisig.C82_pending_persists` | propext, Classical.choice, Quot.sound |
| C82 | `Verif.Multisig2.C82_pending_persists` | propext, Classical.choice, Quot.sound |
| C83 | `Verif.Multisig.C83_keys_execute_pending` | propext, Classical.choice, Quot.sound |
| C84 | `Verif.Multisig.C84_locked_forever` | propext, Classical.choice, Quot.sound |
| C85 | `Verif.Whitelist.C85_new_exact` | propext, Quot.sound |
| C85 | `Verif.Voting.C85_new_exact` | propext, Quot.sound |
| C85 | `Verif.WNear.C85_new_exact` | propext, Quot.sound |
| C85 | `Verif.PoolFactory.C85_new_exact` | propext, Quot.sound |
| C85 | `Verif.LockupFactory.C85_new_exact` | propext, Classical.choice, Quot.sound |
| C86 | `Verif.System.C86_locked_tokens_covered` | propext, Classical.choice, Quot.sound |
| C86 | `Verif.System.C86_known_deposit_is_at_the_pool` | propext, Classical.choice, Quot.sound |
| C87 | `Verif.System.C87_selected_pool_is_a_listed_pool` | propext, Classical.choice, Quot.sound |
| C88 | `Verif.System.C88_transfers_enabled_by_two_thirds` | propext, Classical.choice, Quot.sound |
| C89 | `Verif.System.C89_never_stuck` | propext, Classical.choice, Quot.sound |
| C90 | `Verif.StakingPool.C90_unstake_iff` | propext, Classical.choice, Quot.sound |
| C90 | `Verif.StakingPool.C90_only_deposits_take_tokens` | propext, Classical.choice, Quot.sound |
| C90 | `Verif.StakingPool.C90_deposit_exact` | propext, Classical.choice, Quot.sound |
| C90 | `Verif.StakingPool.C90_withdraw_exact` | propext, Classical.choice, Quot.sound |
| C90 | `Verif.StakingPool.C90_admin_iff` | propext, Classical.choice, Quot.sound |
| C91 | `Verif.PoolFactory.C91_start_exact` | propext, Classical.choice, Quot.sound |
| C91 | `Verif.PoolFactory.C91_creation_exact` | propext, Classical.choice, Quot.sound |
| C91 | `Verif.PoolFactory.C91_success_exact` | propext, Classical.choice, Quot.sound |
| C91 | `Verif.PoolFactory.C91_whitelisting_exact` | propext, Classical.choice, Quot.sound |
| C91 | `Verif.PoolFactory.C91_created_pools_get_whitelisted` | propext, Classical.choice, Quot.sound |
| C92 | `Verif.System.C92_owner_recovers_everything` | propext, Classical.choice, Quot.sound |
| C93 | `Verif.System.C93_termination_completes` | propext, Classical.choice, Quot.sound |
| C94 | `Verif.StakingPool.C94_reward_in_proportion` | propext, Classical.choice, Quot.sound |
| C94 | `Verif.StakingPool.C94_same_growth_for_all` | propext, Classical.choice, Quot.sound |
| C95 | `Verif.StakingPool.C95_slashed_pool_is_frozen` | propext, Quot.sound |
| C95 | `Verif.StakingPool.C95_refill_revives` | propext, Classical.choice, Quot.sound |
| C96 | `Verif.Voting.C96_two_thirds_decide` | propext, Classical.choice, Quot.sound |
| C97 | `Verif.Multisig.C97_multisig_keys_stem_from_requests` | propext, Classical.choice, Quot.sound |
| C97 | `Verif.Multisig.C97_multisig_no_full_access` | propext, Classical.choice, Quot.sound |
| C97 | `Verif.Multisig2.C97_keys_stem_from_requests` | propext, Classical.choice, Quot.sound |
| C97 | `Verif.Multisig2.C97_no_full_access` | propext, Classical.choice, Quot.sound |
| C98 | `Verif.Multisig2.C98_keys_in_step` | propext, Classical.choice, Quot.sound |
| C98 | `Verif.Multisig2.C98_mixed_request_parts_them` | propext, Classical.choice, Quot.sound |
| C98 | `Verif.Multisig2.C98_member_key_signs` | propext, Classical.choice, Quot.sound |
| C99 | `Verif.MultisigFactory.C99_factory_wallet_locked` | propext, Classical.choice, Quot.sound |
| C99 | `Verif.Multisig2.C99_duplicate_key_locks` | propext, Classical.choice, Quot.sound |
| C100 | `Verif.System.C100_factory_is_careful` | propext, Classical.choice, Quot.sound |
| C100 | `Verif.System.C100_listed_pools_were_asked_for` | propext, Classical.choice, Quot.sound |
| C100 | `Verif.System.C100_selected_pool_was_asked_for` | propext, Classical.choice, Quot.sound |
| C100 | `Verif.System.C100_locked_tokens_covered` | propext, Classical.choice, Quot.sound |
| C101 | `Verif.System.C101_select_decided_by_whitelist` | propext, Classical.choice, Quot.sound |
| C101 | `Verif.System.C101_new_pool_can_be_selected` | propext, Classical.choice, Quot.sound |
| C102 | `Verif.Lockup.C102_storage_reserve_stays` | propext, Quot.sound |
| C102 | `Verif.StakingPool.C102_pool_keeps_initial_balance` | propext, Classical.choice, Quot.sound |
| C102 | `Verif.System.C102_reserve_on_account` | propext, Classical.choice, Quot.sound |
| C103 | `Verif.System.C103_gas_suffices` | propext, Classical.choice, Quot.sound |
| C103 | `Verif.System.C103_documented_gas` | propext, Quot.sound |
| C103 | `Verif.System.C103_receipt_without_gas` | propext, Quot.sound |
| C103 | `Verif.System.C103_stake_without_gas` | propext, Classical.choice, Quot.sound |
| C103 | `Verif.System.C103_only_calls_run_out` | propext, Classical.choice, Quot.sound |
| C103 | `Verif.System.C103_never_stuck_with_gas` | propext, Classical.choice, Quot.sound |
| C103 | `Verif.System.C103_factory_reserves` | propext, Classical.choice, Quot.sound |
| C104 | `Verif.StakingPool.C104_deposit_and_stake_iff` | propext, Classical.choice, Quot.sound |
| C104 | `Verif.System.C104_operation_exact` | propext, Classical.choice, Quot.sound |
| C104 | `Verif.System.C104_deposit_arrives` | propext, Classical.choice, Quot.sound |
| C104 | `Verif.System.C104_stake_arrives` | propext, Classical.choice, Quot.sound |
| C104 | `Verif.System.C104_refresh_exact` | propext, Classical.choice, Quot.sound |
| C105 | `Verif.System.C105_poll_result_enables` | propext, Quot.sound |
| C105 | `Verif.System.C105_owner_takes_over` | propext, Classical.choice, Quot.sound |
| C105 | `Verif.System.C105_whole_way_out` | propext, Classical.choice, Quot.sound |
| C106 | `Verif.Multisig.C106_add_key` | propext, Classical.choice, Quot.sound |
| C106 | `Verif.Multisig.C106_delete_key` | propext, Classical.choice, Quot.sound |
| C106 | `Verif.Multisig2.C106_add_member` | propext, Classical.choice, Quot.sound |
| C106 | `Verif.Multisig2.C106_delete_member` | propext, Classical.choice, Quot.sound |
| C107 | `Verif.System.C107_pool_vote_is_the_owners` | propext, Classical.choice, Quot.sound |
| C107 | `Verif.System.C107_pool_vote_stands` | propext, Classical.choice, Quot.sound |
| C107 | `Verif.System.C107_owner_votes` | propext, Classical.choice, Quot.sound |
| C107 | `Verif.System.C107_transfers_enabled_by_pool_owners` | propext, Classical.choice, Quot.sound |
| C108 | `Verif.Wallet.C108_wallet_acts_as_confirmed` | propext, Classical.choice, Quot.sound |
| C108 | `Verif.Wallet.C108_requests_or_keys` | propext, Classical.choice, Quot.sound |
| C108 | `Verif.Wallet.C108_members_make_it_act` | propext, Classical.choice, Quot.sound |
| C108 | `Verif.Wallet.C108_lockup_pays_as_confirmed` | propext, Classical.choice, Quot.sound |
| C108 | `Verif.Wallet.C108_pool_as_confirmed` | propext, Classical.choice, Quot.sound |
| C109 | `Verif.System.C109_rewards_are_the_owners` | propext, Classical.choice, Quot.sound |
| C109 | `Verif.System.C109_owner_takes_rewards` | propext, Classical.choice, Quot.sound |
| C110 | `Verif.StakingPool.C110_rewards_compound` | propext, Classical.choice, Quot.sound |
| C110 | `Verif.StakingPool.C110_rewards_found` | propext, Classical.choice, Quot.sound |
| C111 | `Verif.Multisig.C111_requests_are_rationed` | propext, Classical.choice, Quot.sound |
| C111 | `Verif.Multisig2.C111_requests_are_rationed` | propext, Classical.choice, Quot.sound |
| C111 | `Verif.Multisig2.C111_pending_bounded` | propext, Classical.choice, Quot.sound |
| C112 | `Verif.LockupFactory.C112_agreed_schedule` | propext, Classical.choice, Quot.sound |
| C112 | `Verif.LockupFactory.C112_paid_out` | propext, Classical.choice, Quot.sound |
| C112 | `Verif.LockupFactory.C112_only_the_parties` | propext, Classical.choice, Quot.sound |
| C113 | `Verif.StakingPool.C113_no_profit_without_rewards` | propext, Classical.choice, Quot.sound |
| C113 | `Verif.StakingPool.C113_one_account` | propext, Classical.choice, Quot.sound |
| C113 | `Verif.StakingPool.C113_from_the_start` | propext, Classical.choice, Quot.sound |
| C114 | `Verif.StakingPool.C114_due_tokens_are_liquid` | propext, Classical.choice, Quot.sound |
| C114 | `Verif.StakingPool.C114_everybody_due_is_paid` | propext, Classical.choice, Quot.sound |
| C114 | `Verif.StakingPool.C114_four_epochs_suffice` | propext, Classical.choice, Quot.sound |
| C115 | `Verif.System.C115_owner_out_after_four_epochs` | propext, Classical.choice, Quot.sound |
| C115 | `Verif.System.C115_whole_way_out` | propext, Classical.choice, Quot.sound |
| C115 | `Verif.System.C115_termination_after_four_epochs` | propext, Classical.choice, Quot.sound |
| C115 | `Verif.System.C115_rewards_after_four_epochs` | propext, Classical.choice, Quot.sound |
| C116 | `Verif.PoolFactory.C116_settings_as_ordered` | propext, Classical.choice, Quot.sound |
| C116 | `Verif.PoolFactory.C116_deposit_stays` | propext, Classical.choice, Quot.sound |
| C116 | `Verif.PoolFactory.C116_delegators_are_paid` | propext, Classical.choice, Quot.sound |
| C117 | `Verif.MultisigFactory.C117_as_ordered` | propext, Classical.choice, Quot.sound |
| C117 | `Verif.MultisigFactory.C117_ordered_members_decide` | propext, Classical.choice, Quot.sound |
| C117 | `Verif.MultisigFactory.C117_nobody_else` | propext, Classical.choice, Quot.sound |
| C117 | `Verif.MultisigFactory.C117_members_can_spend` | propext, Classical.choice, Quot.sound |
| C118 | `Verif.MultisigFactory.C118_ordered_wallet` | propext, Classical.choice, Quot.sound |
| C118 | `Verif.MultisigFactory.C118_members_can_pay` | propext, Classical.choice, Quot.sound |
| C118 | `Verif.Multisig.C118_multisig_nothing_gets_lost` | propext, Classical.choice, Quot.sound |
| C118 | `Verif.Multisig.C118_multisig_tokens_leave_only_by_requests` | propext, Classical.choice, Quot.sound |
| C118 | `Verif.Multisig.C118_multisig_keys_can_pay` | propext, Classical.choice, Quot.sound |
| C118 | `Verif.Multisig2.C118_nothing_gets_lost` | propext, Classical.choice, Quot.sound |
| C118 | `Verif.Multisig2.C118_tokens_leave_only_by_requests` | propext, Classical.choice, Quot.sound |
| C119 | `Verif.WNear.C119_everybody_can_leave` | propext, Classical.choice, Quot.sound |
| C119 | `Verif.WNear.C119_everybody_is_paid` | propext, Classical.choice, Quot.sound |
| C119 | `Verif.WNear.C119_nothing_is_left_behind` | propext, Classical.choice, Quot.sound |
| C120 | `Verif.WNear.C120_idle_account` | propext, Classical.choice, Quot.sound |
| C120 | `Verif.WNear.C120_contract_account` | propext, Classical.choice, Quot.sound |
| C120 | `Verif.WNear.C120_contract_can_receive` | propext, Classical.choice, Quot.sound |
| C121 | `Verif.WNear.C121_no_profit` | propext, Classical.choice, Quot.sound |
| C121 | `Verif.WNear.C121_paid_at_most` | propext, Classical.choice, Quot.sound |
