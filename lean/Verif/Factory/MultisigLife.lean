import Verif.Factory.MultisigProps
import Verif.Multisig2.Founders

/-!
# The life of a wallet that was ordered from the multisig factory (C117)
-/

namespace Verif.MultisigFactory

open Verif Verif.Factory

/-! ## Vocabulary -/

/-- In the history `evs`, `who` called `create` with deposit `att`, had these tokens, and the call was
accepted. -/
def Asked (cfg : Cfg) (w0 : World) (evs : List Ev) (who : AccountId) (att : Nat) (name : AccountId)
    (ms : List Multisig2.Member) (n : Nat) : Prop :=
  ∃ l1 l2 pk gas hostOk, evs = l1 ++ .create who pk att gas hostOk name ms n :: l2 ∧
    att ≤ (run cfg w0 l1).wallet who ∧ who ≠ cfg.self ∧
    ∃ b, create (mkEnv cfg who att gas hostOk) name ms n = .ok b

/-- The account `id` that the factory created, with its access keys: it has none, and the batch of `new`,
with the key `pk` of whoever signed the order, is under way. `decode` is how the contract understands
method names and arguments. -/
def wallet (acc : Created) (pk : PublicKey) : Multisig2.KWorld := ⟨acc.multisig, .empty, [(pk, acc.keys)], []⟩

/-! ## Helper lemmas -/

theorem Asked.snoc {cfg : Cfg} {w0 : World} {l : List Ev} {who : AccountId} {att : Nat}
    {name : AccountId} {ms : List Multisig2.Member} {n : Nat} (h : Asked cfg w0 l who att name ms n)
    (ev : Ev) : Asked cfg w0 (l ++ [ev]) who att name ms n := by
  obtain ⟨l1, l2, pk, gas, hostOk, rfl, hr⟩ := h
  exact ⟨l1, l2 ++ [ev], pk, gas, hostOk, by simp, hr⟩

theorem run_snoc (cfg : Cfg) (w : World) (l : List Ev) (ev : Ev) :
    run cfg w (l ++ [ev]) = step cfg (run cfg w l) ev := by
  simp [run]

/-- Creations under way and created accounts come from accepted calls. -/
theorem origin {cfg : Cfg} {w0 : World} (hs : Started w0) (evs : List Ev) :
    (∀ r ∈ (run cfg w0 evs).receipts, r.batch.code = .multisig2 ∧ ∃ name,
      Asked cfg w0 evs r.caller r.batch.deposit name r.batch.members r.batch.numConfirmations ∧
      r.batch.receiver = subAccount name cfg.self) ∧
    ∀ id acc, (run cfg w0 evs).accounts.get id = some acc → acc.code = .multisig2 ∧ ∃ name ms n,
      Asked cfg w0 evs acc.caller acc.deposit name ms n ∧ id = subAccount name cfg.self ∧
      n ≤ ms.length ∧ ∃ now pk, ∃ c b,
        Multisig2.new ⟨id, cfg.self, pk, 0, now, true⟩ false ms n = .ok (c, b) ∧
        acc.multisig = ⟨c, now, []⟩ ∧ acc.keys = b := by
  induction evs using List.reverseRecOn with
  | nil =>
    obtain ⟨bal, now, wallet, rfl⟩ := hs
    exact ⟨fun r h => (by cases h), fun id acc h => (by cases h)⟩
  | append_singleton l ev ih =>
    obtain ⟨ih1, ih2⟩ := ih
    rw [run_snoc]
    have keep1 : ∀ r ∈ (run cfg w0 l).receipts, r.batch.code = .multisig2 ∧ ∃ name,
        Asked cfg w0 (l ++ [ev]) r.caller r.batch.deposit name r.batch.members r.batch.numConfirmations ∧
        r.batch.receiver = subAccount name cfg.self := by
      intro r hr
      obtain ⟨h1, name, h2, h3⟩ := ih1 r hr
      exact ⟨h1, name, h2.snoc ev, h3⟩
    have keep2 : ∀ id acc, (run cfg w0 l).accounts.get id = some acc → acc.code = .multisig2 ∧
        ∃ name ms n, Asked cfg w0 (l ++ [ev]) acc.caller acc.deposit name ms n ∧
        id = subAccount name cfg.self ∧ n ≤ ms.length ∧ ∃ now pk, ∃ c b,
          Multisig2.new ⟨id, cfg.self, pk, 0, now, true⟩ false ms n = .ok (c, b) ∧
          acc.multisig = ⟨c, now, []⟩ ∧ acc.keys = b := by
      intro id acc h
      obtain ⟨h1, name, ms, n, h2, h3⟩ := ih2 id acc h
      exact ⟨h1, name, ms, n, h2.snoc ev, h3⟩
    cases ev with
    | income n => exact ⟨keep1, keep2⟩
    | tick dt => exact ⟨keep1, keep2⟩
    | earn who n => simp only [step]; split <;> exact ⟨keep1, keep2⟩
    | create who pk att gas hostOk name ms n =>
      simp only [step]
      split
      · rename_i hw
        cases hx : create (mkEnv cfg who att gas hostOk) name ms n with
        | error m => exact ⟨keep1, keep2⟩
        | ok b =>
          refine ⟨fun r hr => ?_, keep2⟩
          rcases List.mem_append.mp hr with hr | hr
          · exact keep1 r hr
          · rw [List.mem_singleton] at hr
            subst hr
            have hask : Asked cfg w0 (l ++ [.create who pk att gas hostOk name ms n]) who att name ms n :=
              ⟨l, [], pk, gas, hostOk, rfl, hw.1, hw.2, b, hx⟩
            obtain ⟨_, _, _, _, _, rfl⟩ := create_ok.mp hx
            exact ⟨rfl, name, hask, rfl⟩
      · exact ⟨keep1, keep2⟩
    | deliver i ok =>
      simp only [step]
      cases hr : (run cfg w0 l).receipts[i]? with
      | none => exact ⟨keep1, keep2⟩
      | some r =>
        have hmem := List.mem_of_getElem? hr
        simp only [execReceipt]
        cases hd : (if ok then deploy cfg { run cfg w0 l with
            receipts := (run cfg w0 l).receipts.eraseIdx i } r else none) with
        | none => exact ⟨fun r' h => keep1 r' (List.mem_of_mem_eraseIdx h), keep2⟩
        | some acc =>
          refine ⟨fun r' h => keep1 r' (List.mem_of_mem_eraseIdx h), fun id acc' h => ?_⟩
          simp only [UMap.get_insert] at h
          split at h
          · rename_i he
            cases h
            have hd' : deploy cfg { run cfg w0 l with
                receipts := (run cfg w0 l).receipts.eraseIdx i } r = some acc := by
              cases ok with
              | true => exact hd
              | false => cases hd
            obtain ⟨_, _, _, _, g5, g6, g7, _, c, b, g8, g9, g10⟩ := deploy_some hd'
            obtain ⟨k1, name, k2, k3⟩ := keep1 r hmem
            refine ⟨g5.trans k1, name, r.batch.members, r.batch.numConfirmations, ?_, he ▸ k3, ?_,
              _, r.pk, c, b, he ▸ g8, g9, g10⟩
            · rw [g6, g7]; exact k2
            · exact (Multisig2.new_ok.mp g8).2.2.2.1
          · exact keep2 id acc' h

/-- What is known about a created wallet and its order. -/
theorem ordered {cfg : Cfg} {w0 : World} (hs : Started w0) (evs : List Ev) {id : AccountId}
    {acc : Created} (hacc : (run cfg w0 evs).accounts.get id = some acc) :
    ∃ name ms n, Asked cfg w0 evs acc.caller acc.deposit name ms n ∧ id = subAccount name cfg.self ∧
      acc.code = .multisig2 ∧ n ≤ ms.length ∧
      ∀ decode pk, Multisig2.KStarted ⟨id, decode⟩ ms n .empty (wallet acc pk) := by
  obtain ⟨h1, name, ms, n, h2, h3, h4, now, pk0, c, b, h5, h6, h7⟩ := (origin hs evs).2 id acc hacc
  refine ⟨name, ms, n, h2, h3, h1, h4, fun decode pk => ⟨c, b, now, cfg.self, pk, ?_, ?_⟩⟩
  · obtain ⟨g1, g2, g3, g4, g5, g6⟩ := Multisig2.new_ok.mp h5
    exact Multisig2.new_ok.mpr ⟨g1, g2, g3, g4, g5, g6⟩
  · unfold wallet; rw [h6, h7]

/-! ## Property theorems -/

/-- **C117 (as ordered).** Every wallet the factory created was ordered by an accepted call, whose deposit is
on it and whose name it bears. Whatever happens afterwards, as long as no request to the wallet itself was
executed, the members are exactly those of the order, the number of confirmations is that of the order, and
only keys that are members are access keys of the account, with the permission to call the methods for
members and nothing else. -/
theorem C117_as_ordered {cfg : Cfg} {w0 : World} (hs : Started w0) (evs : List Ev) {id : AccountId}
    {acc : Created} (hacc : (run cfg w0 evs).accounts.get id = some acc) :
    ∃ name ms n, Asked cfg w0 evs acc.caller acc.deposit name ms n ∧ id = subAccount name cfg.self ∧
      acc.code = .multisig2 ∧
      ∀ decode pk kevs, let kw := Multisig2.krun ⟨id, decode⟩ (wallet acc pk) kevs
        (∀ x ∈ kw.w.issued, x.2.receiver ≠ id) →
        (∀ m, m ∈ Multisig2.getMembers kw.w.c ↔ m ∈ ms) ∧ Multisig2.getNumConfirmations kw.w.c = n ∧
        ∀ k p, kw.keys.get k = some p → .key k ∈ ms ∧
          p = .fn id "add_request,delete_request,confirm,add_and_confirm_request" := by
  obtain ⟨name, ms, n, h1, h2, h3, _, h5⟩ := ordered hs evs hacc
  refine ⟨name, ms, n, h1, h2, h3, ?_⟩
  intro decode pk kevs kw hf
  have hk := h5 decode pk
  refine ⟨?_, ?_, fun k p hkp => Multisig2.founders_keys hk kevs hf hkp⟩
  · have hlog := Multisig2.log_run hk kevs
    show ∀ m, m ∈ Multisig2.getMembers (Multisig2.krun _ _ _).w.c ↔ m ∈ ms
    rw [hlog]
    exact (Multisig2.founders_config hk.started _ (hlog ▸ hf)).1
  · have hlog := Multisig2.log_run hk kevs
    show Multisig2.getNumConfirmations (Multisig2.krun _ _ _).w.c = n
    rw [hlog]
    exact (Multisig2.founders_config hk.started _ (hlog ▸ hf)).2.1

/-- **C117 (the members decide).** Whatever the wallet of an order executes, up to and including the first
request to the wallet itself, was proposed by a member of the order, is exactly what was proposed, and was
confirmed since then by at least as many distinct members of the order as the order says. -/
theorem C117_ordered_members_decide {cfg : Cfg} {w0 : World} (hs : Started w0) (evs : List Ev)
    {id : AccountId} {acc : Created} (hacc : (run cfg w0 evs).accounts.get id = some acc) :
    ∃ name ms n, Asked cfg w0 evs acc.caller acc.deposit name ms n ∧
      ∀ decode pk kevs l1 ev l2 rid b,
        (Multisig2.krun ⟨id, decode⟩ (wallet acc pk) kevs).log = l1 ++ ev :: l2 →
        let w := Multisig2.run id acc.multisig l1
        (∀ x ∈ w.issued, x.2.receiver ≠ id) →
        (Multisig2.step id w ev).issued = (rid, b) :: w.issued →
        ∃ a1 e1 a2 m0 q, l1 ++ [ev] = a1 ++ e1 :: a2 ∧
          Multisig2.Adds id (Multisig2.run id acc.multisig a1) e1 m0 rid q ∧ m0 ∈ ms ∧
          b.receiver = q.receiver ∧ b.actions = q.actions.filterMap (Multisig2.Action.toP id) ∧
          ∃ conf : List Multisig2.Member, conf.Nodup ∧ n ≤ conf.length ∧
            ∀ m ∈ conf, m ∈ ms ∧ Multisig2.Sometime id (Multisig2.run id acc.multisig a1) (e1 :: a2)
              (fun w e => Multisig2.Confirms id w e m rid) := by
  obtain ⟨name, ms, n, h1, _, _, _, h5⟩ := ordered hs evs hacc
  refine ⟨name, ms, n, h1, ?_⟩
  intro decode pk kevs l1 ev l2 rid b _ w hf hi
  have hst : Multisig2.Started id ms n acc.multisig := (h5 decode pk).started
  obtain ⟨a1, e1, a2, m0, q, g1, g2, g3, g4, g5⟩ := Multisig2.founders_decide hst l1 ev hf hi
  exact ⟨a1, e1, a2, m0, q, g1, g2, g3, by rw [g4]; rfl, by rw [g4]; rfl, g5⟩

/-- **C117 (nobody else).** As long as no request to the wallet itself was executed, a transaction signed
with a key that is not a member of the order, and a call by an account that is not a member of the order,
change nothing at the wallet: neither the factory nor whoever paid for the wallet have a say, unless the
order names them. -/
theorem C117_nobody_else {cfg : Cfg} {w0 : World} (hs : Started w0) (evs : List Ev)
    {id : AccountId} {acc : Created} (hacc : (run cfg w0 evs).accounts.get id = some acc) :
    ∃ name ms n, Asked cfg w0 evs acc.caller acc.deposit name ms n ∧
      ∀ decode pk kevs, let kw := Multisig2.krun ⟨id, decode⟩ (wallet acc pk) kevs
        (∀ x ∈ kw.w.issued, x.2.receiver ≠ id) →
        (∀ pk' acts hosts, .key pk' ∉ ms → Multisig2.kstep ⟨id, decode⟩ kw (.sign pk' acts hosts) = kw) ∧
        ∀ who pk' att host c, .account who ∉ ms →
          Multisig2.kstep ⟨id, decode⟩ kw (.foreign who pk' att host c) = kw := by
  obtain ⟨name, ms, n, h1, _, _, _, h5⟩ := ordered hs evs hacc
  refine ⟨name, ms, n, h1, ?_⟩
  intro decode pk kevs kw hf
  exact Multisig2.strangers (h5 decode pk) kevs hf

/-- **C117 (the members can).** If the order names no key twice and not the wallet itself, then at every time
after the batch with the keys has arrived, as long as no request to the wallet itself was executed, any
`n ≥ 1` distinct members of the order can make the wallet execute any request that consists of payments,
calls and the like: one member with room for a request proposes it, and once all `n` have confirmed it, it is
executed, exactly as proposed. Key members only need their key, account members only their account. -/
theorem C117_members_can_spend {cfg : Cfg} {w0 : World} (hs : Started w0) (evs : List Ev)
    {id : AccountId} {acc : Created} (hacc : (run cfg w0 evs).accounts.get id = some acc) :
    ∃ name ms n, Asked cfg w0 evs acc.caller acc.deposit name ms n ∧ n ≤ ms.length ∧
      ((Multisig2.memberKeys ms).Nodup → .account id ∉ ms →
      ∀ decode pk kevs, let kw := Multisig2.krun ⟨id, decode⟩ (wallet acc pk) kevs
        (∀ x ∈ kw.w.issued, x.2.receiver ≠ id) → kw.queue = [] →
        ∀ (q : Multisig2.Request) a1 a2 g m0 (ml : List Multisig2.Member),
          (∀ a ∈ q.actions, a.inRange = true ∧ ((∃ x, a = .transfer x) ∨ a = .createAccount ∨
            (∃ c, a = .deployContract c) ∨ ∃ m ar d g, a = .functionCall m ar d g)) →
          decode "add_request" a1 = some (.addRequest q) →
          decode "confirm" a2 = some (.confirm (Multisig2.getRequestNonce kw.w.c)) →
          m0 ∈ ms → Multisig2.getNumRequestsPerMember kw.w.c m0 < 12 →
          Multisig2.getRequestNonce kw.w.c + 1 < 2 ^ 32 →
          ml.Nodup → ml ≠ [] → (∀ m ∈ ml, m ∈ ms) → ml.length = n →
          (Multisig2.krun ⟨id, decode⟩ kw (Multisig2.memberTx "add_request" a1 g (.addRequest q) m0 ::
            ml.map (Multisig2.memberTx "confirm" a2 g
              (.confirm (Multisig2.getRequestNonce kw.w.c))))).w.issued =
            (Multisig2.getRequestNonce kw.w.c, ⟨q.receiver, q.actions.filterMap (Multisig2.Action.toP id)⟩) ::
              kw.w.issued) := by
  obtain ⟨name, ms, n, h1, _, _, h4, h5⟩ := ordered hs evs hacc
  refine ⟨name, ms, n, h1, h4, ?_⟩
  intro hnd hself decode pk kevs kw hf hq q a1 a2 g m0 ml hacts hd1 hd2 hm0 hroom hids hml hne hsub hlen
  have hk := h5 decode pk
  have hkeys : ∀ k, .key k ∈ ms → kw.keys.get k = some (.fn id Multisig2.multisigMethodNames) := by
    rcases Multisig2.founding_run hk hnd kevs hf with ⟨pk', b, g1, _⟩ | ⟨_, g2⟩
    · have : kw.queue = [(pk', b)] := g1
      rw [hq] at this; cases this
    · exact g2
  have hlog : kw.w = Multisig2.run id acc.multisig kw.log := Multisig2.log_run hk kevs
  have hreach : Multisig2.Reachable id ms n kw.w := ⟨acc.multisig, kw.log, hk.started, hlog⟩
  obtain ⟨hmem, hnum, hlim⟩ : (∀ m, m ∈ Multisig2.getMembers kw.w.c ↔ m ∈ ms) ∧
      Multisig2.getNumConfirmations kw.w.c = n ∧ kw.w.c.limit = 12 := by
    have hf' : Multisig2.SelfFree id kw.w := hf
    rw [hlog] at hf' ⊢
    exact Multisig2.founders_config hk.started _ hf'
  have hsplit : ∀ f ∈ ["add_request", "confirm"],
      f.toList ∈ splitCommas Multisig2.multisigMethodNames.toList := by decide +kernel
  have hcan : ∀ f ∈ ["add_request", "confirm"], ∀ m ∈ ms, Multisig2.CanCall ⟨id, decode⟩ kw f m := by
    intro f hf m hm
    cases m with
    | key k => exact .inr ⟨_, hkeys k hm, .inr (hsplit f hf)⟩
    | account who => rintro rfl; exact hself hm
  have hex : ∀ (l : List Multisig2.Action) (s : Multisig2.State) (num : Nat),
      (∀ a ∈ l, a.inRange = true ∧ ((∃ x, a = .transfer x) ∨ a = .createAccount ∨
        (∃ c, a = .deployContract c) ∨ ∃ m ar d g, a = .functionCall m ar d g)) →
      Multisig2.AllowedAll id q.receiver num s l := by
    intro l
    induction l with
    | nil => intro _ _ _; trivial
    | cons a t ih =>
      intro s num h
      refine ⟨?_, ih _ _ (fun x hx => h x (List.mem_cons_of_mem _ hx))⟩
      rcases (h a List.mem_cons_self).2 with ⟨x, rfl⟩ | rfl | ⟨c, rfl⟩ | ⟨m, ar, d, g, rfl⟩ <;> trivial
  have hcount : Multisig2.numPending kw.w.c m0 < kw.w.c.limit := by
    rw [hlim]
    have := (Multisig2.C48_bookkeeping hk.started kw.log).2.2.2.2.2 m0
    have hw : Multisig2.run (⟨id, decode⟩ : Multisig2.KCfg).self (wallet acc pk).w kw.log = kw.w := hlog.symm
    rw [hw] at this
    rw [← this]; exact hroom
  exact Multisig2.propose_out (cfg := ⟨id, decode⟩) (kw := kw) (q := q) (g := g) hreach (hex q.actions kw.w.c q.actions.length hacts)
    (List.all_eq_true.mpr (fun a ha => (hacts a ha).1)) hd1 hd2 ((hmem m0).mpr hm0)
    (hcan _ (by simp) m0 hm0) hcount (by unfold two32; omega) hml hne
    (fun m hm => ⟨(hmem m).mpr (hsub m hm), hcan _ (by simp) m (hsub m hm)⟩) (hnum.trans hlen.symm)

/-! ## A concrete order -/

/-- `alice` orders a wallet with 10 tokens for the key `k` and the accounts `bob` and `carol`, two of three. -/
def orderMembers : List Multisig2.Member := [.key "k", .account "bob", .account "carol"]

/-- The order and the creation. -/
def orderEvs : List Ev := [.create "alice" "ak" 10 createCallGas true "w" orderMembers 2, .deliver 0 true]

/-- The wallet with its keys. -/
def orderWallet : Multisig2.KWorld :=
  (((run demoCfg demo0 orderEvs).accounts.get "w.factory").map (fun acc => wallet acc "ak")).getD
    Multisig2.demoK

/-- The wallet pays `dave` five. -/
def orderPay : Multisig2.Request := ⟨"dave", [.transfer 5]⟩

/-- Arguments are one byte. -/
def orderDecode : String → Multisig2.Bytes → Option Multisig2.Call
  | "add_request", [0] => some (.addRequest orderPay)
  | "confirm", [b] => some (.confirm b.toNat)
  | _, _ => none

/-- The keys arrive; the payer and the factory try to propose a payment to themselves. -/
def orderLife : List Multisig2.KEv :=
  [.deliver 0 [], .sign "ak" [.transfer 1] [], .foreign "alice" "ak" 0 true (.addRequest ⟨"alice", [.transfer 5]⟩),
   .foreign "factory" "ak" 0 true (.addRequest ⟨"factory", [.transfer 5]⟩)]

/-- The hypotheses are met: `carol` proposes the payment, the key `k` and `bob` confirm, and it is made. -/
example :
    let kw := Multisig2.krun ⟨"w.factory", orderDecode⟩ orderWallet orderLife
    ((run demoCfg demo0 orderEvs).accounts.get "w.factory").isSome = true ∧ demo0.receipts = [] ∧
    kw.w.issued = [] ∧ kw.queue = [] ∧ (Multisig2.memberKeys orderMembers).Nodup ∧
    .account "w.factory" ∉ orderMembers ∧
    orderDecode "confirm" [0] = some (.confirm (Multisig2.getRequestNonce kw.w.c)) ∧
    Multisig2.getNumRequestsPerMember kw.w.c (.account "carol") < 12 ∧
    (∀ a ∈ orderPay.actions, a.inRange = true) ∧
    (Multisig2.krun ⟨"w.factory", orderDecode⟩ kw
      (Multisig2.memberTx "add_request" [0] 0 (.addRequest orderPay) (.account "carol") ::
        [.key "k", .account "bob"].map (Multisig2.memberTx "confirm" [0] 0 (.confirm 0)))).w.issued =
      [(0, ⟨"dave", [.transfer 5]⟩)] := by
  decide +kernel

end Verif.MultisigFactory
