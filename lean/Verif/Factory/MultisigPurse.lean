import Verif.Factory.MultisigLife
import Verif.Multisig2.Props7

/-!
# The tokens of a wallet that was ordered from the multisig factory (C118)
-/

namespace Verif.MultisigFactory

open Verif Verif.Factory

/-- The wallet `acc` with the deposit of the order, cf. `wallet`. -/
def purse (acc : Created) (pk : PublicKey) : Multisig2.PWorld := ⟨wallet acc pk, acc.deposit, []⟩

/-! ## Property theorems -/

/-- **C118 (an ordered wallet).** As long as no request to the wallet itself was executed: the tokens on the
wallet and those that executed requests took away are together the deposit of the order and what arrived since,
no key sent any tokens, and whatever was executed was proposed by a member of the order, is exactly what was
proposed, and was confirmed since then by at least as many distinct members of the order as the order says. -/
theorem C118_ordered_wallet {cfg : Cfg} {w0 : World} (hs : Started w0) (evs : List Ev) {id : AccountId}
    {acc : Created} (hacc : (run cfg w0 evs).accounts.get id = some acc) :
    ∃ att name ms n, Asked cfg w0 evs acc.caller att name ms n ∧
      ∀ decode pk pevs, let pw := Multisig2.prun ⟨id, decode⟩ (purse acc pk) pevs
        (∀ x ∈ pw.kw.w.issued, x.2.receiver ≠ id) →
        pw.bal + Multisig2.spent id pw.kw.w.issued = att + Multisig2.received pevs ∧ pw.paid = [] ∧
        ∀ rid b, (rid, b) ∈ pw.kw.w.issued → ∃ l1 l2 a1 e1 a2 m0 q,
          pw.kw.log = l1 ++ l2 ∧ l1 = a1 ++ e1 :: a2 ∧
          Multisig2.Adds id (Multisig2.run id acc.multisig a1) e1 m0 rid q ∧ m0 ∈ ms ∧
          b.receiver = q.receiver ∧ b.actions = q.actions.filterMap (Multisig2.Action.toP id) ∧
          ∃ conf : List Multisig2.Member, conf.Nodup ∧ n ≤ conf.length ∧
            ∀ m ∈ conf, m ∈ ms ∧ Multisig2.Sometime id (Multisig2.run id acc.multisig a1) (e1 :: a2)
              (fun w e => Multisig2.Confirms id w e m rid) := by
  obtain ⟨name, ms, n, h1, _, _, _, h5⟩ := ordered hs evs hacc
  refine ⟨acc.deposit, name, ms, n, h1, ?_⟩
  intro decode pk pevs pw hf
  have hk := h5 decode pk
  obtain ⟨kevs, hkw⟩ := Multisig2.prun_krun ⟨id, decode⟩ (purse acc pk) pevs
  have hkw : pw.kw = Multisig2.krun ⟨id, decode⟩ (wallet acc pk) kevs := hkw
  have hfree : Multisig2.SelfFree id pw.kw.w := hf
  obtain ⟨g1, _⟩ := Multisig2.C118_nothing_gets_lost hk acc.deposit pevs
  have g1 : pw.bal + Multisig2.spent id pw.kw.w.issued + (pw.paid.map (fun x => x.2.2)).sum =
    acc.deposit + Multisig2.received pevs := g1
  have hp : pw.paid = [] := by
    refine Multisig2.prun_paid (cfg := ⟨id, decode⟩) (pw := purse acc pk) pevs ?_
    intro l1 l2 he k hfull
    obtain ⟨kevs1, hk1⟩ := Multisig2.prun_krun ⟨id, decode⟩ (purse acc pk) l1
    have hsub : Multisig2.SelfFree id (Multisig2.prun ⟨id, decode⟩ (purse acc pk) l1).kw.w := by
      intro x hx
      refine hf x ?_
      show x ∈ (Multisig2.prun ⟨id, decode⟩ (purse acc pk) pevs).kw.w.issued
      rw [he]
      exact Multisig2.prun_issued l1 l2 hx
    rw [hk1] at hfull hsub
    have := (Multisig2.founders_keys hk kevs1 hsub hfull).2
    cases this
  rw [hp] at g1
  refine ⟨g1, hp, ?_⟩
  intro rid b hm
  have hlog : pw.kw.w = Multisig2.run id acc.multisig pw.kw.log := by rw [hkw]; exact Multisig2.log_run hk kevs
  have hst : Multisig2.Started id ms n acc.multisig := hk.started
  rw [hlog] at hm hfree
  obtain ⟨l1, ev, l2, hl, hi⟩ := Multisig2.issued_at hst pw.kw.log hm
  rw [hl] at hfree
  obtain ⟨a1, e1, a2, m0, q, k1, k2, k3, k4, k5⟩ := Multisig2.founders_decide hst l1 ev hfree.prefix hi
  exact ⟨l1 ++ [ev], l2, a1, e1, a2, m0, q, by rw [hl]; simp, k1, k2, k3, by rw [k4]; rfl, by rw [k4]; rfl, k5⟩

/-- **C118 (the members can pay).** Under the conditions of `C117_members_can_spend`, if the tokens on the wallet
suffice for the request, it is executed and the tokens are gone from the wallet, exactly as many as proposed. -/
theorem C118_members_can_pay {cfg : Cfg} {w0 : World} (hs : Started w0) (evs : List Ev)
    {id : AccountId} {acc : Created} (hacc : (run cfg w0 evs).accounts.get id = some acc) :
    ∃ name ms n, Asked cfg w0 evs acc.caller acc.deposit name ms n ∧
      ((Multisig2.memberKeys ms).Nodup → .account id ∉ ms →
      ∀ decode pk pevs, let pw := Multisig2.prun ⟨id, decode⟩ (purse acc pk) pevs
        (∀ x ∈ pw.kw.w.issued, x.2.receiver ≠ id) → pw.kw.queue = [] →
        ∀ (q : Multisig2.Request) a1 a2 g m0 (ml : List Multisig2.Member),
          (∀ a ∈ q.actions, a.inRange = true ∧ ((∃ x, a = .transfer x) ∨ a = .createAccount ∨
            (∃ c, a = .deployContract c) ∨ ∃ m ar d g, a = .functionCall m ar d g)) →
          q.receiver ≠ id →
          ((q.actions.filterMap (Multisig2.Action.toP id)).map Multisig2.tokens).sum ≤ pw.bal →
          decode "add_request" a1 = some (.addRequest q) →
          decode "confirm" a2 = some (.confirm (Multisig2.getRequestNonce pw.kw.w.c)) →
          m0 ∈ ms → Multisig2.getNumRequestsPerMember pw.kw.w.c m0 < 12 →
          Multisig2.getRequestNonce pw.kw.w.c + 1 < 2 ^ 32 →
          ml.Nodup → ml ≠ [] → (∀ m ∈ ml, m ∈ ms) → ml.length = n →
          let pw' := Multisig2.prun ⟨id, decode⟩ pw
            (.acc (Multisig2.memberTx "add_request" a1 g (.addRequest q) m0) ::
              ml.map (fun m => .acc (Multisig2.memberTx "confirm" a2 g
                (.confirm (Multisig2.getRequestNonce pw.kw.w.c)) m)))
          pw'.kw.w.issued = (Multisig2.getRequestNonce pw.kw.w.c,
            ⟨q.receiver, q.actions.filterMap (Multisig2.Action.toP id)⟩) :: pw.kw.w.issued ∧
          pw'.bal + ((q.actions.filterMap (Multisig2.Action.toP id)).map Multisig2.tokens).sum = pw.bal) := by
  obtain ⟨name, ms, n, h1, _, h3⟩ := C117_members_can_spend hs evs hacc
  refine ⟨name, ms, n, h1, ?_⟩
  intro hnd hself decode pk pevs pw hf hq q a1 a2 g m0 ml hacts hrec hbal hd1 hd2 hm0 hroom hids hml hne hsub hlen pw'
  obtain ⟨kevs, hkw⟩ := Multisig2.prun_krun ⟨id, decode⟩ (purse acc pk) pevs
  have hkw : pw.kw = Multisig2.krun ⟨id, decode⟩ (wallet acc pk) kevs := hkw
  have h4 := h3 hnd hself decode pk kevs (hkw ▸ hf) (hkw ▸ hq) q a1 a2 g m0 ml hacts hd1 (hkw ▸ hd2) hm0
    (hkw ▸ hroom) (hkw ▸ hids) hml hne hsub hlen
  rw [← hkw] at h4
  have htok : Multisig2.PAction.amount = Multisig2.tokens := funext Multisig2.amount_tokens
  have hamt : Multisig2.allAmount [(Multisig2.getRequestNonce pw.kw.w.c,
      (⟨q.receiver, q.actions.filterMap (Multisig2.Action.toP id)⟩ : Multisig2.Batch))] =
      ((q.actions.filterMap (Multisig2.Action.toP id)).map Multisig2.tokens).sum := by
    simp only [Multisig2.allAmount, Multisig2.Batch.amount, Multisig2.actsAmount, htok, List.map_cons,
      List.map_nil, List.sum_cons, List.sum_nil, Nat.add_zero]
  have hlv : Multisig2.leaving id [(Multisig2.getRequestNonce pw.kw.w.c,
      (⟨q.receiver, q.actions.filterMap (Multisig2.Action.toP id)⟩ : Multisig2.Batch))] =
      ((q.actions.filterMap (Multisig2.Action.toP id)).map Multisig2.tokens).sum := by
    simp only [Multisig2.leaving, Multisig2.Batch.amount, Multisig2.actsAmount, htok, List.map_cons,
      List.map_nil, List.sum_cons, List.sum_nil, Nat.add_zero, if_neg hrec]
  obtain ⟨g1, g2⟩ := Multisig2.prun_enough ⟨id, decode⟩ _ pw [_] h4 (by rw [hamt]; exact hbal)
  have hpw : pw' = Multisig2.prun ⟨id, decode⟩ pw
      ((Multisig2.memberTx "add_request" a1 g (.addRequest q) m0 :: ml.map (Multisig2.memberTx "confirm" a2 g
        (.confirm (Multisig2.getRequestNonce pw.kw.w.c)))).map .acc) := by
    simp only [List.map_cons, List.map_map]; rfl
  rw [hpw, g1, g2, hlv]
  exact ⟨h4, by omega⟩

/-! ## The order of `MultisigLife` -/

/-- The wallet gets its keys and 7 tokens; the payer tries to get the deposit back. -/
def orderPurse : List Multisig2.PEv :=
  orderLife.map .acc ++ [.receive 7, .out "ak" "alice" [.transfer 10], .out "k" "alice" [.transfer 10]]

/-- The hypotheses are met: `carol` proposes to pay 5, the key `k` and `bob` confirm, and 12 of 17 are left. -/
example :
    let pw0 := (((run demoCfg demo0 orderEvs).accounts.get "w.factory").map (fun acc => purse acc "ak")).getD
      ⟨Multisig2.demoK, 0, []⟩
    let pw := Multisig2.prun ⟨"w.factory", orderDecode⟩ pw0 orderPurse
    let pw' := Multisig2.prun ⟨"w.factory", orderDecode⟩ pw
      (.acc (Multisig2.memberTx "add_request" [0] 0 (.addRequest orderPay) (.account "carol")) ::
        [.key "k", .account "bob"].map (fun m => .acc (Multisig2.memberTx "confirm" [0] 0 (.confirm 0) m)))
    pw.bal = 17 ∧ pw.kw.queue = [] ∧ pw.kw.w.issued = [] ∧ Multisig2.getRequestNonce pw.kw.w.c = 0 ∧
    pw'.bal = 12 ∧ pw'.kw.w.issued = [(0, ⟨"dave", [.transfer 5]⟩)] ∧
    Multisig2.spent "w.factory" pw'.kw.w.issued = 5 ∧ pw'.paid = [] := by
  decide +kernel

end Verif.MultisigFactory
