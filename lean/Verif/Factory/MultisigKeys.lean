import Verif.Factory.MultisigProps
import Verif.Multisig2.Props4

/-!
# Wallets of the multisig factory with a duplicate key (C99)
-/

namespace Verif.MultisigFactory

open Verif

/-- **C99, through the factory.** The factory passes a duplicate key on. If it creates a wallet whose
members contain a key twice and fewer distinct accounts than `num_confirmations`, then the creation
succeeds, the deposit is on the new account, and the account is locked: it never has an access key and
no request is ever executed, whatever happens to it. -/
theorem C99_factory_wallet_locked {cfg : Cfg} {w : World} {i : Nat} {ok : Bool} {r : Receipt}
    {acc : Created} (hr : w.receipts[i]? = some r) (hnew : w.accounts.get r.batch.receiver = none)
    (hacc : (step cfg w (.deliver i ok)).accounts.get r.batch.receiver = some acc)
    (hdup : ¬ (Multisig2.memberKeys r.batch.members).Nodup)
    (hfew : (Multisig2.accountMembers r.batch.members).dedup.length < r.batch.numConfirmations)
    (decode : String → Multisig2.Bytes → Option Multisig2.Call) (evs : List Multisig2.KEv) :
    let kw := Multisig2.krun ⟨r.batch.receiver, decode⟩ ⟨acc.multisig, .empty, [(r.pk, acc.keys)], []⟩ evs
    acc.deposit = r.batch.deposit ∧ (∀ k, kw.keys.get k = none) ∧ kw.w.issued = [] := by
  simp only [step, hr, execReceipt] at hacc
  cases hd : (if ok then deploy cfg { w with receipts := w.receipts.eraseIdx i } r else none) with
  | none => rw [hd] at hacc; simp only at hacc; rw [hnew] at hacc; cases hacc
  | some acc' =>
    rw [hd] at hacc
    simp only [UMap.get_insert, if_pos, Option.some.injEq] at hacc
    subst hacc
    have hd' : deploy cfg { w with receipts := w.receipts.eraseIdx i } r = some acc' := by
      cases ok with
      | true => exact hd
      | false => cases hd
    obtain ⟨_, _, _, _, g5, g6, g7, _, c, b, g8, g9, g10⟩ := deploy_some hd'
    have hs : Multisig2.KStarted ⟨r.batch.receiver, decode⟩ r.batch.members r.batch.numConfirmations
        .empty ⟨acc'.multisig, .empty, [(r.pk, acc'.keys)], []⟩ := by
      refine ⟨c, b, w.now, cfg.self, r.pk, g8, ?_⟩
      rw [g9, g10]
    obtain ⟨h1, h2, _⟩ := Multisig2.C99_duplicate_key_locks hs hdup hfew evs
    exact ⟨g6, h1, h2⟩

/-- Alice creates a wallet for two signatures and gives the key `k` twice. -/
def demoDup : List Ev := [.create "alice" "k" 10 createCallGas true "m" [.key "k", .account "alice", .key "k"] 2]

example : ((run demoCfg demo0 demoDup).receipts[0]?.map (fun r => r.batch.receiver)) = some "m.factory" ∧
    (run demoCfg demo0 demoDup).accounts.get "m.factory" = none ∧
    ((step demoCfg (run demoCfg demo0 demoDup) (.deliver 0 true)).accounts.get "m.factory").isSome = true ∧
    ¬ (Multisig2.memberKeys [.key "k", .account "alice", .key "k"]).Nodup ∧
    (Multisig2.accountMembers [.key "k", .account "alice", .key "k"]).dedup.length < 2 :=
  ⟨by decide +kernel, by decide +kernel, by decide +kernel, by decide, by decide⟩

end Verif.MultisigFactory
