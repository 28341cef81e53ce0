import Verif.Wallet.Live
import Verif.Wallet.Lockup
import Verif.System.Demo

/-!
# C108: an account of the system that is a multisig wallet acts only as its members confirmed
-/

namespace Verif.Wallet

open Verif
open Verif.System (Sys)
open Verif.Multisig2 (KWorld KCfg KEv PAction Batch KStarted krun Member Request)

/-! ## A concrete case -/

/-- The account "owner" runs the multisig; arguments are one byte. -/
def demoDecode : String → Multisig2.Bytes → Option Multisig2.Call
  | "confirm", [b] => some (.confirm b.toNat)
  | _, _ => none

def demoLockupCall : String → Multisig2.Bytes → Option Lockup.Call
  | "select_staking_pool", _ => some (.owner (.selectStakingPool "pool"))
  | "deposit_and_stake", [b] => some (.owner (.depositAndStake (b.toNat * 10 ^ 24)))
  | "transfer", [b] => some (.owner (.transfer (b.toNat * 10 ^ 24) "alice"))
  | "add_full_access_key", _ => some (.owner (.addFullAccessKey "newkey"))
  | _, _ => none

def demoCfg : WCfg :=
  { sys := System.demoCfg, ms := ⟨"owner", demoDecode⟩, lockupCall := demoLockupCall
    poolCall := fun _ _ => none, whitelistCall := fun _ _ => none, pollCall := fun _ _ => none }

/-- Two of three: the key `k1`, `bob` and `carol`. -/
def demoK : KWorld :=
  match Multisig2.new ⟨"owner", "founder", "fk", 0, 1000, true⟩ false Multisig2.demoMembers 2 with
  | .ok (c, b) => ⟨⟨c, 1000, []⟩, .empty, [("fk", b)], []⟩
  | .error _ => ⟨Multisig2.demoStart, .empty, [], []⟩

theorem demoK_started : KStarted demoCfg.ms Multisig2.demoMembers 2 .empty demoK :=
  ⟨_, _, 1000, "founder", "fk", rfl, rfl⟩

/-- The wallet right after `new` and a system with a lockup that belongs to it. -/
def demo0 (a : Lockup.NewArgs) : WWorld := ⟨demoK, System.startOf a, []⟩

/-- Select the pool. -/
def demoSelect : Request := ⟨"lockup", [.functionCall "select_staking_pool" [] 0 0]⟩

/-- Pay two and then three NEAR to alice. -/
def demoPay : Request :=
  ⟨"lockup", [.functionCall "transfer" [2] 0 0, .functionCall "transfer" [3] 0 0]⟩

/-- A full access key for the lockup. -/
def demoFull : Request := ⟨"lockup", [.functionCall "add_full_access_key" [] 0 0]⟩

/-- Pools are deployed; `bob` proposes the pool, `k1` and `carol` confirm, the batch and the receipts of
the lockup arrive. Somebody tries the same without the members. -/
def demoEvs : List WEv :=
  [.ms (.deliver 0 []),
   .sys (.create "pool" "factory" "boss" "key" ⟨1, 10⟩ (30 * 10 ^ 24) 7),
   .sys (.whitelist ⟨"foundation", 0, .addPool "pool"⟩),
   .ms (.foreign "bob" "bk" 0 true (.addRequest demoSelect)),
   .direct "k1" "lockup" [.functionCall "select_staking_pool" [] 0 0],
   .sys (.call "owner" 0 (.owner (.selectStakingPool "pool"))),
   .ms (.sign "k1" [.functionCall "confirm" [0] 0 0] [true]),
   .ms (.foreign "carol" "ck" 0 true (.confirm 0)), .deliver 0 true,
   .sys (.execute 0 true .failed), .sys (.callback 0)]

/-- Everything is released; `bob` proposes to pay and `carol` confirms, too. -/
def payEvs : List WEv :=
  [.sys (.tick (10 ^ 20)), .ms (.foreign "bob" "bk" 0 true (.addRequestAndConfirm demoPay)),
   .ms (.foreign "carol" "ck" 0 true (.confirm 0)), .deliver 0 true]

/-- The same with a full access key, which is added. -/
def fullEvs : List WEv :=
  [.sys (.tick (10 ^ 20)), .ms (.foreign "bob" "bk" 0 true (.addRequestAndConfirm demoFull)),
   .ms (.foreign "carol" "ck" 0 true (.confirm 0)), .deliver 0 true, .sys (.execute 0 true .unit)]

theorem ownKeys_of {keys0 : UMap PublicKey Perm} {issued : List (Nat × Batch)}
    (h0 : ∀ k p, keys0.get k = some p → ∃ names, p = .fn demoCfg.wallet names)
    (h : issued.all (fun x => x.2.actions.all (fun a => match a with
      | .addFullAccessKey _ => false | .addAccessKey _ _ _ _ => false | _ => true)) = true) :
    OwnKeys demoCfg keys0 issued := by
  rw [List.all_eq_true] at h
  refine ⟨h0, fun id b k hb ha => ?_, fun id b k al r names hb ha => ?_⟩
  · have := List.all_eq_true.mp (h _ hb) _ ha
    cases this
  · have := List.all_eq_true.mp (h _ hb) _ ha
    cases this

/-! ## The theorems -/

/-- **C108.** An account of the system runs the multisig2 contract and has given out keys for calls of
itself only. In every history of wallet and system: the calls that the account makes to lockup, staking
pools, whitelist and poll are, in order, exactly the calls named by requests, no request twice and each
with all of its calls, in the order in which the request lists them, one directly after the other as far
as the wallet is concerned; each of these requests was added by a member and confirmed, since then, by at
least `num_confirmations` distinct members. -/
theorem C108_wallet_acts_as_confirmed {cfg : WCfg} {ms : List Member} {n : Nat}
    {keys0 : UMap PublicKey Perm} {w0 : WWorld} (hs : KStarted cfg.ms ms n keys0 w0.ms)
    (ho : w0.out = []) (evs : List WEv) (hk : OwnKeys cfg keys0 (wrun cfg w0 evs).ms.w.issued) :
    (wrun cfg w0 evs).sys = System.run cfg.sys w0.sys (trace cfg w0 evs) ∧
    ∃ E : List (Nat × Request), (E.map Prod.fst).Nodup ∧
      (trace cfg w0 evs).filter (byWallet cfg) = E.flatMap (fun x => ordersOf cfg x.2) ∧
      ∀ x ∈ E, Approved cfg.wallet w0.ms.w (wrun cfg w0 evs).ms.log x.1 x.2 := by
  refine ⟨wrun_sys cfg w0 evs, ?_⟩
  obtain ⟨D, h1, h2, h3⟩ := flow_run hs ho evs (no_direct hs evs hk)
  obtain ⟨E, g1, g2, g3⟩ := requests_of (cfg := cfg)
    (P := Approved cfg.wallet w0.ms.w (wrun cfg w0 evs).ms.log) D (by
      intro x hx
      have hi := h3 x (List.mem_append_left _ hx)
      rw [wrun_ms] at hi ⊢
      exact issued_approved hs _ hi)
  refine ⟨E, ?_, h1.trans g2.symm, g3⟩
  rw [g1]
  exact (List.nodup_append.mp h2).1

/-- The pool is selected by the members, and the attempts without them do nothing. -/
example : KStarted demoCfg.ms Multisig2.demoMembers 2 .empty (demo0 Lockup.pollArgs).ms ∧
    OwnKeys demoCfg .empty (wrun demoCfg (demo0 Lockup.pollArgs) demoEvs).ms.w.issued ∧
    (trace demoCfg (demo0 Lockup.pollArgs) demoEvs).length = 5 ∧
    (wrun demoCfg (demo0 Lockup.pollArgs) demoEvs).sys.lk.c.staking = some ⟨"pool", false, 0⟩ :=
  ⟨demoK_started, ownKeys_of (by intro k p h; cases h) (by decide +kernel), by decide +kernel,
    by decide +kernel⟩

/-- **C108, whatever keys there are.** A call that the account makes to a contract of the system was
named by a request that was added by a member and confirmed by enough distinct members, or a transaction
with this call was signed with an access key of the account that permits it (where keys come from: C97).-/
theorem C108_requests_or_keys {cfg : WCfg} {ms : List Member} {n : Nat}
    {keys0 : UMap PublicKey Perm} {w0 : WWorld} (hs : KStarted cfg.ms ms n keys0 w0.ms)
    (ho : w0.out = []) (evs : List WEv) {e : System.Ev} (he : e ∈ trace cfg w0 evs)
    (hb : byWallet cfg e = true) :
    (∃ id q, Approved cfg.wallet w0.ms.w (wrun cfg w0 evs).ms.log id q ∧ e ∈ ordersOf cfg q) ∨
    ∃ l1 pk r acts l2 p m args d g, evs = l1 ++ .direct pk r acts :: l2 ∧ r ≠ cfg.wallet ∧
      (wrun cfg w0 l1).ms.keys.get pk = some p ∧ .functionCall m args d g ∈ acts ∧
      order cfg r m args d = some e ∧
      (p = .full ∨ acts = [.functionCall m args d g] ∧ p.permits r m = true ∧ d = 0) := by
  suffices h : (∀ x ∈ (wrun cfg w0 evs).out, x ∈ (wrun cfg w0 evs).ms.w.issued) ∧
      ((∃ x ∈ (wrun cfg w0 evs).ms.w.issued, e ∈ batchOrders cfg x.2.receiver x.2.actions) ∨
      ∃ l1 pk r acts l2 p, evs = l1 ++ .direct pk r acts :: l2 ∧ r ≠ cfg.wallet ∧
        (wrun cfg w0 l1).ms.keys.get pk = some p ∧ Multisig2.permAllows r p acts = true ∧
        e ∈ batchOrders cfg r acts) by
    rcases h.2 with ⟨x, h1, h2⟩ | ⟨l1, pk, r, acts, l2, p, h1, h2, h3, h4, h5⟩
    · left
      rw [wrun_ms] at h1 ⊢
      obtain ⟨q, g1, g2⟩ := issued_approved hs _ h1
      refine ⟨x.1, q, g2, ?_⟩
      rw [g1] at h2
      rw [← batchOrders_toBatch]
      exact h2
    · right
      obtain ⟨a, ha, hae⟩ := List.mem_filterMap.mp h5
      cases a with
      | functionCall m args d g =>
        refine ⟨l1, pk, r, acts, l2, p, m, args, d, g, h1, h2, h3, ha, hae, ?_⟩
        unfold Multisig2.permAllows at h4
        split at h4
        · exact .inl rfl
        · simp only [List.mem_singleton, PAction.functionCall.injEq] at ha
          obtain ⟨rfl, rfl, rfl, rfl⟩ := ha
          simp only [Bool.and_eq_true, decide_eq_true_eq] at h4
          exact .inr ⟨rfl, h4.1, h4.2⟩
        · cases h4
      | _ => cases hae
  induction evs using List.reverseRecOn with
  | nil => cases he
  | append_singleton l ev ih =>
    have hrun : wrun cfg w0 (l ++ [ev]) = wstep cfg (wrun cfg w0 l) ev := by
      rw [wrun_append]; rfl
    have hsub : ∀ x ∈ (wrun cfg w0 l).ms.w.issued, x ∈ (wstep cfg (wrun cfg w0 l) ev).ms.w.issued := by
      intro x hx
      cases ev with
      | ms e' => exact (issued_suffix _ _).subset hx
      | _ => exact hx
    have hout : ∀ l : List WEv, ∀ x ∈ (wrun cfg w0 l).out, x ∈ (wrun cfg w0 l).ms.w.issued := by
      intro l
      induction l using List.reverseRecOn with
      | nil => simp [wrun, ho]
      | append_singleton l ev ih =>
        rw [wrun_append]
        intro x hx
        cases ev with
        | ms e' =>
          rcases List.mem_append.mp (show x ∈ (wrun cfg w0 l).out ++ newOut _ _ _ from hx) with hx | hx
          · exact (issued_suffix _ _).subset (ih x hx)
          · exact List.mem_of_mem_take (List.mem_reverse.mp (List.mem_filter.mp hx).1)
        | deliver i ok => exact ih x (List.mem_of_mem_eraseIdx hx)
        | _ => exact ih x hx
    refine ⟨hout _, ?_⟩
    rw [trace_append] at he
    rcases List.mem_append.mp he with he | he
    · rcases (ih he).2 with ⟨x, h1, h2⟩ | ⟨l1, pk, r, acts, l2, p, h1, h2⟩
      · exact .inl ⟨x, by rw [hrun]; exact hsub x h1, h2⟩
      · exact .inr ⟨l1, pk, r, acts, l2 ++ [ev], p, by rw [h1]; simp, h2⟩
    · simp only [trace, List.append_nil] at he
      have mem_of : ∀ {r acts es}, batchEvs cfg r (wrun cfg w0 l).sys acts = some es → e ∈ es →
          e ∈ batchOrders cfg r acts := by
        intro r acts es h1 h2
        rw [← batchEvs_filter h1]
        exact List.mem_filter.mpr ⟨h2, hb⟩
      cases ev with
      | ms e' => cases he
      | sys e' =>
        simp only [effects] at he
        split at he
        · cases he
        · rename_i hne
          simp only [List.mem_singleton] at he
          subst he
          exact absurd hb hne
      | deliver i ok =>
        simp only [effects] at he
        split at he
        · rename_i x hx
          split at he
          · cases hbe : batchEvs cfg x.2.receiver (wrun cfg w0 l).sys x.2.actions with
            | none => rw [hbe] at he; cases he
            | some es =>
              rw [hbe] at he
              refine .inl ⟨x, ?_, mem_of hbe he⟩
              rw [hrun]
              exact hsub x (hout l x (List.mem_of_getElem? hx))
          · cases he
        · cases he
      | direct pk r acts =>
        simp only [effects] at he
        split at he
        · rename_i p hp
          split at he
          · rename_i hc
            cases hbe : batchEvs cfg r (wrun cfg w0 l).sys acts with
            | none => rw [hbe] at he; cases he
            | some es =>
              rw [hbe] at he
              exact .inr ⟨l, pk, r, acts, [], p, rfl, hc.1, hp, hc.2, mem_of hbe he⟩
          · cases he
        · cases he

/-- The wallet selects the pool. -/
example : (.call "owner" 0 (.owner (.selectStakingPool "pool")) : System.Ev) ∈
      trace demoCfg (demo0 Lockup.pollArgs) demoEvs ∧
    byWallet demoCfg (.call "owner" 0 (.owner (.selectStakingPool "pool"))) = true := by
  refine ⟨?_, by decide⟩
  have : (trace demoCfg (demo0 Lockup.pollArgs) demoEvs)[2]? =
      some (.call "owner" 0 (.owner (.selectStakingPool "pool"))) := by with_unfolding_all rfl
  exact List.mem_of_getElem? this

/-- **C108, members make it act.** In every reachable state of the wallet: a member with room for another
request proposes calls to one contract of the system, and exactly `num_confirmations` distinct members
(at least one) confirm, by a call from their account or a transaction signed with their key. Then the
batch is under way and nothing else has changed; when it arrives and the contract accepts the calls one
after the other, exactly these calls, in this order, happen. -/
theorem C108_members_make_it_act {cfg : WCfg} {ms : List Member} {n : Nat}
    {keys0 : UMap PublicKey Perm} {w0 : WWorld} (hs : KStarted cfg.ms ms n keys0 w0.ms)
    (before : List WEv) {w : WWorld} (hw : w = wrun cfg w0 before) {m0 : Member} {q : Request}
    {ev0 : KEv} (h0 : Speaks cfg.ms w.ms.keys m0 (.addRequest q) ev0)
    (hm0 : m0 ∈ Multisig2.getMembers w.ms.w.c) (hr : q.actions.all Multisig2.Action.inRange = true)
    (hroom : Multisig2.numPending w.ms.w.c m0 < w.ms.w.c.limit)
    (hids : Multisig2.getRequestNonce w.ms.w.c + 1 < two32) (hrec : q.receiver ≠ cfg.wallet)
    {ml : List Member} {evs : List KEv}
    (hsp : List.Forall₂ (fun m ev =>
      Speaks cfg.ms w.ms.keys m (.confirm (Multisig2.getRequestNonce w.ms.w.c)) ev) ml evs)
    (hnd : ml.Nodup) (hm : ∀ m ∈ ml, m ∈ Multisig2.getMembers w.ms.w.c)
    (hnum : ml.length = max 1 (Multisig2.getNumConfirmations w.ms.w.c))
    (hwel : Welcome cfg q.receiver w.sys q.actions) :
    let w1 := wrun cfg w (.ms ev0 :: evs.map .ms)
    w1.sys = w.sys ∧ w1.out = w.out ++ [(Multisig2.getRequestNonce w.ms.w.c, q.toBatch cfg.wallet)] ∧
    (wrun cfg w1 [.deliver w.out.length true]).sys = System.run cfg.sys w.sys (ordersOf cfg q) ∧
    (wrun cfg w1 [.deliver w.out.length true]).out = w.out := by
  intro w1
  have hreach : Multisig2.Reachable cfg.ms.self ms n w.ms.w := by
    rw [hw, wrun_ms, Multisig2.log_run hs]
    exact ⟨_, _, hs.started, rfl⟩
  have hex : Multisig2.Executable cfg.ms.self w.ms.w.c q := by
    have : ∀ (acts : List Multisig2.Action) (s : Sys) (num : Nat) (c : Multisig2.State),
        Welcome cfg q.receiver s acts → Multisig2.AllowedAll cfg.ms.self q.receiver num c acts := by
      intro acts
      induction acts with
      | nil => intros; trivial
      | cons a t ih =>
        rintro s num c ⟨m, args, d, g, ev, rfl, _, _, h4⟩
        exact ⟨trivial, ih _ _ _ h4⟩
    exact this _ _ _ _ hwel
  have hiss := propose_confirm hreach h0 hm0 hr hroom hids hex hsp hnd hm hnum
  -- events of the wallet: the system stays, new batches join `out`
  have hms : ∀ (es : List KEv) (v : WWorld), (wrun cfg v (es.map .ms)).sys = v.sys ∧
      (wrun cfg v (es.map .ms)).ms = krun cfg.ms v.ms es ∧
      ∃ l, (krun cfg.ms v.ms es).w.issued = l ++ v.ms.w.issued ∧
        (wrun cfg v (es.map .ms)).out = v.out ++ l.reverse.filter (fun x => x.2.receiver ≠ cfg.wallet) := by
    intro es
    induction es with
    | nil => intro v; exact ⟨rfl, rfl, [], rfl, by simp [wrun]⟩
    | cons e t ih =>
      intro v
      obtain ⟨i1, i2, l, i3, i4⟩ := ih (wstep cfg v (.ms e))
      obtain ⟨l0, hl0⟩ := issued_suffix (cfg := cfg.ms) v.ms e
      refine ⟨i1, i2, l ++ l0, ?_, ?_⟩
      · show (krun cfg.ms (Multisig2.kstep cfg.ms v.ms e) t).w.issued = _
        rw [show (wstep cfg v (.ms e)).ms = Multisig2.kstep cfg.ms v.ms e from rfl] at i3
        rw [i3, ← hl0, List.append_assoc]
      · simp only [List.map_cons, wrun]
        rw [i4]
        show (v.out ++ newOut _ _ _) ++ _ = _
        rw [← hl0, newOut_append, List.reverse_append, List.filter_append, List.append_assoc]
  obtain ⟨i1, i2, l, i3, i4⟩ := hms (ev0 :: evs) w
  have hl : l = [(Multisig2.getRequestNonce w.ms.w.c, q.toBatch cfg.ms.self)] := by
    rw [hiss] at i3
    exact (List.append_cancel_right (as := [_]) i3).symm
  have hout : w1.out = w.out ++ [(Multisig2.getRequestNonce w.ms.w.c, q.toBatch cfg.wallet)] := by
    have : w1.out = w.out ++ l.reverse.filter (fun x => x.2.receiver ≠ cfg.wallet) := i4
    rw [this, hl]
    have hrec' : q.receiver ≠ cfg.ms.self := hrec
    simp [Multisig2.Request.toBatch, hrec', WCfg.wallet]
  refine ⟨i1, hout, ?_, ?_⟩
  · have hsys : w1.sys = w.sys := i1
    show System.run cfg.sys w1.sys (effects cfg w1 _) = _
    have hb := welcome_batch hwel
    simp only [effects, hout, List.getElem?_concat_length, if_true, hsys]
    show System.run cfg.sys w.sys ((batchEvs cfg q.receiver w.sys
      (q.actions.filterMap (Multisig2.Action.toP cfg.wallet))).getD []) = _
    rw [hb]
    rfl
  · show w1.out.eraseIdx w.out.length = _
    rw [hout, List.eraseIdx_append_of_length_le (Nat.le_refl _)]
    simp

/-- The wallet has its keys and the pool is listed; `bob` proposes to select it, the key `k1` and `carol`
confirm. -/
def speakDemo : WWorld := wrun demoCfg (demo0 Lockup.pollArgs) (demoEvs.take 3)

example : speakDemo = wrun demoCfg (demo0 Lockup.pollArgs) (demoEvs.take 3) ∧
    Speaks demoCfg.ms speakDemo.ms.keys (.account "bob") (.addRequest demoSelect)
      (.foreign "bob" "bk" 0 true (.addRequest demoSelect)) ∧
    Member.account "bob" ∈ Multisig2.getMembers speakDemo.ms.w.c ∧
    demoSelect.actions.all Multisig2.Action.inRange = true ∧
    Multisig2.numPending speakDemo.ms.w.c (.account "bob") < speakDemo.ms.w.c.limit ∧
    Multisig2.getRequestNonce speakDemo.ms.w.c + 1 < two32 ∧ demoSelect.receiver ≠ demoCfg.wallet ∧
    List.Forall₂ (fun m ev => Speaks demoCfg.ms speakDemo.ms.keys m
        (.confirm (Multisig2.getRequestNonce speakDemo.ms.w.c)) ev)
      [.key "k1", .account "carol"]
      [.sign "k1" [.functionCall "confirm" [0] 0 0] [true], .foreign "carol" "ck" 0 true (.confirm 0)] ∧
    [Member.key "k1", .account "carol"].Nodup ∧
    (∀ m ∈ [Member.key "k1", .account "carol"], m ∈ Multisig2.getMembers speakDemo.ms.w.c) ∧
    [Member.key "k1", .account "carol"].length =
      max 1 (Multisig2.getNumConfirmations speakDemo.ms.w.c) ∧
    Welcome demoCfg demoSelect.receiver speakDemo.sys demoSelect.actions := by
  have hn : Multisig2.getRequestNonce speakDemo.ms.w.c = 0 := by decide +kernel
  have hkey : speakDemo.ms.keys.get "k1" = some (.fn "owner" Multisig2.multisigMethodNames) := by
    decide +kernel
  refine ⟨rfl, .inl ⟨"bob", "bk", rfl, by decide, rfl⟩, by decide +kernel, by decide +kernel,
    by decide +kernel, by decide +kernel, by decide, ?_, by decide, by decide +kernel,
    by decide +kernel, ?_⟩
  · rw [hn]
    refine .cons (.inr ⟨"k1", _, "confirm", [0], 0, rfl, hkey, ?_, rfl, rfl⟩)
      (.cons (.inl ⟨"carol", "ck", rfl, by decide, rfl⟩) .nil)
    decide +kernel
  · exact ⟨_, _, _, _, _, rfl, rfl, by decide +kernel, trivial⟩

/-- **C108, the lockup of a wallet.** A lockup belongs to such an account. Whenever the lockup has sent a
payment ordered by the owner, an approved request of the wallet asks the lockup for this very payment;
and when a full access key was added to the lockup, an approved request asks for one. -/
theorem C108_lockup_pays_as_confirmed {cfg : WCfg} {ms : List Member} {n : Nat}
    {keys0 : UMap PublicKey Perm} {a : Lockup.NewArgs} {w0 : WWorld}
    (hs : KStarted cfg.ms ms n keys0 w0.ms) (ho : w0.out = []) (hsys : System.Started cfg.sys a w0.sys)
    (hown : a.owner = cfg.wallet) (evs : List WEv)
    (hk : OwnKeys cfg keys0 (wrun cfg w0 evs).ms.w.issued) :
    (∀ r x st, ⟨.transfer r x, none, st⟩ ∈ (wrun cfg w0 evs).sys.lk.pend →
      ∃ id q, Approved cfg.wallet w0.ms.w (wrun cfg w0 evs).ms.log id q ∧
        .call cfg.wallet 0 (.owner (.transfer x r)) ∈ ordersOf cfg q) ∧
    ((wrun cfg w0 evs).sys.lk.fullKey = true →
      ∃ id q key, Approved cfg.wallet w0.ms.w (wrun cfg w0 evs).ms.log id q ∧
        .call cfg.wallet 0 (.owner (.addFullAccessKey key)) ∈ ordersOf cfg q) := by
  obtain ⟨h1, E, h2, h3, h4⟩ := C108_wallet_acts_as_confirmed hs ho evs hk
  have hinit : w0.sys.lk.pend = [] ∧ w0.sys.lk.fullKey = false ∧ w0.sys.lk.c.owner = cfg.wallet := by
    obtain ⟨d, b, now, c, hb, hx, hw⟩ := hsys.lk
    rw [hw]
    exact ⟨rfl, rfl, (Lockup.new_ok hx).1.trans hown⟩
  have hmem : ∀ c, (.call cfg.wallet 0 (.owner c) : System.Ev) ∈ trace cfg w0 evs →
      ∃ id q, Approved cfg.wallet w0.ms.w (wrun cfg w0 evs).ms.log id q ∧
        .call cfg.wallet 0 (.owner c) ∈ ordersOf cfg q := by
    intro c hc
    have : (.call cfg.wallet 0 (.owner c) : System.Ev) ∈ (trace cfg w0 evs).filter (byWallet cfg) :=
      List.mem_filter.mpr ⟨hc, by simp [byWallet]⟩
    rw [h3] at this
    obtain ⟨x, hx, hx'⟩ := List.mem_flatMap.mp this
    exact ⟨x.1, x.2, h4 x hx, hx'⟩
  obtain ⟨g1, g2, g3⟩ := run_leaving (cfg := cfg.sys) (s := w0.sys) (by rw [hinit.1]; simp) hinit.2.1
    (trace cfg w0 evs)
  rw [← h1, hinit.2.2] at g2 g3
  refine ⟨fun r x st hp => ?_, fun hf => ?_⟩
  · obtain ⟨c, g4, g5⟩ := g2 _ hp (.inl ⟨r, x, rfl, rfl⟩)
    rcases g5 with ⟨r', x', g5, _, rfl⟩ | ⟨k, g5, _⟩
    · cases g5
      exact hmem _ g4
    · cases g5
  · obtain ⟨k, g4⟩ := g3 hf
    obtain ⟨id, q, g5, g6⟩ := hmem _ g4
    exact ⟨id, q, k, g5, g6⟩

/-- The members let the lockup pay; in another history they add a full access key. -/
example : KStarted demoCfg.ms Multisig2.demoMembers 2 .empty (demo0 Lockup.demoArgs).ms ∧
    System.Started demoCfg.sys Lockup.demoArgs (demo0 Lockup.demoArgs).sys ∧
    Lockup.demoArgs.owner = demoCfg.wallet ∧
    OwnKeys demoCfg .empty (wrun demoCfg (demo0 Lockup.demoArgs) payEvs).ms.w.issued ∧
    (wrun demoCfg (demo0 Lockup.demoArgs) payEvs).sys.lk.pend =
      [⟨.transfer "alice" (2 * 10 ^ 24), none, .sent⟩,
       ⟨.transfer "alice" (3 * 10 ^ 24), none, .sent⟩] ∧
    OwnKeys demoCfg .empty (wrun demoCfg (demo0 Lockup.demoArgs) fullEvs).ms.w.issued ∧
    (wrun demoCfg (demo0 Lockup.demoArgs) fullEvs).sys.lk.fullKey = true :=
  ⟨demoK_started, System.started_startOf Lockup.demo_started rfl (by decide +kernel), rfl,
    ownKeys_of (by intro k p h; cases h) (by decide +kernel), by decide +kernel,
    ownKeys_of (by intro k p h; cases h) (by decide +kernel), by decide +kernel⟩

/-- **C108, the theorems about the system apply.** If only accounts that run the staking pool contract
are put on the whitelist, the system beside a wallet is in a reachable state; and when a pool is selected
by the lockup of the wallet, an approved request asks for this very pool. -/
theorem C108_pool_as_confirmed {cfg : WCfg} {ms : List Member} {n : Nat}
    {keys0 : UMap PublicKey Perm} {a : Lockup.NewArgs} {w0 : WWorld}
    (hs : KStarted cfg.ms ms n keys0 w0.ms) (ho : w0.out = []) (hsys : System.Started cfg.sys a w0.sys)
    (hown : a.owner = cfg.wallet) (evs : List WEv) (hc : WCareful cfg w0 evs)
    (hk : OwnKeys cfg keys0 (wrun cfg w0 evs).ms.w.issued) :
    System.Reachable cfg.sys a (wrun cfg w0 evs).sys ∧
    ∀ si, (wrun cfg w0 evs).sys.lk.c.staking = some si →
      ∃ id q, Approved cfg.wallet w0.ms.w (wrun cfg w0 evs).ms.log id q ∧
        .call cfg.wallet 0 (.owner (.selectStakingPool si.pool)) ∈ ordersOf cfg q := by
  obtain ⟨h1, E, h2, h3, h4⟩ := C108_wallet_acts_as_confirmed hs ho evs hk
  refine ⟨⟨w0.sys, trace cfg w0 evs, hsys, hc, h1⟩, fun si hsi => ?_⟩
  rw [h1] at hsi
  obtain ⟨⟨l1, l2, l3, i, r, cb, g1, _⟩, _⟩ := System.C87_selected_pool_is_a_listed_pool hsys hc hsi
  rw [hown] at g1
  have : (.call cfg.wallet 0 (.owner (.selectStakingPool si.pool)) : System.Ev) ∈
      (trace cfg w0 evs).filter (byWallet cfg) :=
    List.mem_filter.mpr ⟨by rw [g1]; simp, by simp [byWallet]⟩
  rw [h3] at this
  obtain ⟨x, hx, hx'⟩ := List.mem_flatMap.mp this
  exact ⟨x.1, x.2, h4 x hx, hx'⟩

/-- The members select a pool. -/
example : System.Started demoCfg.sys Lockup.pollArgs (demo0 Lockup.pollArgs).sys ∧
    WCareful demoCfg (demo0 Lockup.pollArgs) demoEvs ∧
    OwnKeys demoCfg .empty (wrun demoCfg (demo0 Lockup.pollArgs) demoEvs).ms.w.issued ∧
    (wrun demoCfg (demo0 Lockup.pollArgs) demoEvs).sys.lk.c.staking = some ⟨"pool", false, 0⟩ :=
  ⟨System.demo_started, System.careful_of_bool (by decide +kernel),
    ownKeys_of (by intro k p h; cases h) (by decide +kernel), by decide +kernel⟩

end Verif.Wallet
