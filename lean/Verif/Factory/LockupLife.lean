import Verif.Factory.LockupProps
import Verif.Lockup.Props4
import Verif.Lockup.Props5

/-!
# The life of a lockup that was ordered from the factory (C112)
-/

namespace Verif.LockupFactory

open Verif Verif.Factory

/-- When the release of an ordered lockup begins: transfers were enabled on 13 October 2020. -/
def releaseStart (a : CreateArgs) : Nat :=
  match a.lockupTimestamp with
  | none => 1602614338293769340 + a.lockupDuration
  | some t => max (1602614338293769340 + a.lockupDuration) t

/-- The part of the deposit that is not released at `now`. -/
def unreleasedPart (att : Nat) (a : CreateArgs) (now : Nat) : Nat :=
  match a.releaseDuration with
  | none => 0
  | some r => if now < releaseStart a + r then att * (releaseStart a + r - now) / r else 0

/-- The part of the deposit that is not vested at `now`. -/
def unvestedPart (att : Nat) (a : CreateArgs) (now : Nat) : Nat :=
  match a.vesting with
  | some (.schedule vs) =>
    if now < vs.cliff then att
    else if now < vs.finish then att * (vs.finish - now) / (vs.finish - vs.start) else 0
  | _ => 0

/-- What the order says to be locked at `now`. -/
def agreed (att : Nat) (a : CreateArgs) (now : Nat) : Nat :=
  if now < releaseStart a then att else max (unreleasedPart att a now) (unvestedPart att a now)

/-- An order with a proper public schedule, or without vesting. -/
def Proper (a : CreateArgs) : Prop :=
  ∀ v, a.vesting = some v → ∃ vs, v = .schedule vs ∧ vs.start ≤ vs.cliff ∧ vs.cliff ≤ vs.finish ∧
    vs.start < vs.finish

/-- The foundation of the factory does not terminate the vesting. -/
def NotTerminated (foundation : AccountId) (evs : List Lockup.Ev) : Prop :=
  ∀ att arg, .call foundation att (.foundation (.terminateVesting arg)) ∉ evs

/-! ## Helper lemmas -/

theorem proper_ok {cfg : Cfg} {honest : Bool} {id : AccountId} {s : State} {a : CreateArgs}
    (h : Proper a) : Lockup.VestingOk (lockupCfg cfg honest id) (Lockup.argVesting (newArgs s a)) := by
  cases hv : a.vesting with
  | none => simp only [Lockup.argVesting, newArgs, hv, Lockup.VestingOk]
  | some v =>
    obtain ⟨vs, rfl, h1, h2, h3⟩ := h v hv
    simp only [Lockup.argVesting, newArgs, hv, Lockup.VestingOk]
    exact ⟨h1, h2, h3⟩

/-- What is known about a created lockup and its order. -/
theorem ordered {cfg : Cfg} {w0 : World} (hs : Started cfg w0) (evs : List Ev)
    {id : AccountId} {acc : Created} (hacc : (run cfg w0 evs).accounts.get id = some acc) :
    ∃ a, Asked cfg w0 evs acc.caller acc.lockup.bal a ∧ acc.args = newArgs w0.c a ∧
      ∀ honest, Lockup.Started (lockupCfg cfg honest id) (newArgs w0.c a) acc.lockup := by
  obtain ⟨h1, h2, _, h6, h7⟩ := (reach_inv hs evs).accounts id acc hacc
  obtain ⟨a, g1, g2⟩ := (origin hs evs).2 id acc hacc
  refine ⟨a, by rw [h7]; exact g1, g2, fun honest => ?_⟩
  rw [← g2]
  exact h6 honest

theorem not_terminated {cfg : Cfg} {honest : Bool} {id : AccountId} {s : State} {a : CreateArgs}
    {l0 : Lockup.World} (h0 : Lockup.Started (lockupCfg cfg honest id) (newArgs s a) l0)
    (hp : Proper a) {evs : List Lockup.Ev} (hn : a.vesting = none ∨ NotTerminated s.foundation evs) :
    (Lockup.run (lockupCfg cfg honest id) l0 evs).fixedUnvested = none := by
  cases hf : (Lockup.run (lockupCfg cfg honest id) l0 evs).fixedUnvested with
  | none => rfl
  | some f =>
    exfalso
    obtain ⟨l1, who, arg, l2, vs, rfl, h1, h2, _⟩ :=
      Lockup.C28_fixed_amount_is_unvested h0 (proper_ok hp) hf
    simp only [newArgs] at h1 h2
    split at h1
    · rename_i hv
      rcases hn with hn | hn
      · rw [hn] at hv; cases hv
      · cases h1
        exact hn 0 arg (by simp)
    · cases h1

theorem moment_eq (a : CreateArgs) :
    Lockup.specMoment 1602614338293769340 a.lockupDuration a.lockupTimestamp = releaseStart a := rfl

/-- The lockup as long as its vesting is not terminated. -/
theorem intact {cfg : Cfg} {honest : Bool} {id : AccountId} {s : State} {a : CreateArgs}
    {l0 : Lockup.World} (h0 : Lockup.Started (lockupCfg cfg honest id) (newArgs s a) l0)
    (hp : Proper a) {evs : List Lockup.Ev} (hn : a.vesting = none ∨ NotTerminated s.foundation evs) :
    let c := (Lockup.run (lockupCfg cfg honest id) l0 evs).c
    c.owner = a.owner ∧ c.vesting = Lockup.argVesting (newArgs s a) ∧
    c.info.lockupAmount = l0.bal ∧ c.info.terminationWithdrawn = 0 ∧
    c.info.lockupDuration = a.lockupDuration ∧ c.info.lockupTimestamp = a.lockupTimestamp ∧
    c.info.releaseDuration = a.releaseDuration ∧
    c.info.transfers = .enabled 1602614338293769340 := by
  have hf := not_terminated h0 hp hn
  obtain ⟨h1, _⟩ := Lockup.init_until_termination h0 evs hf
  obtain ⟨c1, _, c3, c4, c5, c6⟩ := Lockup.const_run (cfg := lockupCfg cfg honest id) (w := l0) evs
  have hS := (Lockup.sinv_run (cfg := lockupCfg cfg honest id) evs (Lockup.started_sinv h0)).fix
  rw [hf] at hS
  obtain ⟨dep, bal, now, c, hb, hnew, rfl⟩ := h0
  obtain ⟨n1, _, _, _, _, n6, _, n8, n9, n10, n11, _⟩ := Lockup.new_ok hnew
  have ht : (Lockup.initWorld c bal now).c.info.transfers = .enabled 1602614338293769340 := n11
  exact ⟨c1.trans n1, h1, c3.trans n6, hS.2, c4.trans n8, c6.trans n10, c5.trans n9,
    Lockup.enabled_run evs ht⟩

/-! ## Property theorems -/

/-- **C112 (the agreed schedule).** Every lockup the factory created was ordered by an accepted call, and
whatever happens on the lockup afterwards, as long as the foundation does not terminate the vesting (which
it can only if vesting was ordered), the amount reported as locked is at every time the one the order
says: everything until the release starts, then the larger of the unreleased and the unvested part of the
deposit. The owner is the one of the order. -/
theorem C112_agreed_schedule {cfg : Cfg} {w0 : World} (hs : Started cfg w0) (evs : List Ev)
    {id : AccountId} {acc : Created} (hacc : (run cfg w0 evs).accounts.get id = some acc) :
    ∃ att a, Asked cfg w0 evs acc.caller att a ∧ acc.lockup.bal = att ∧
      (Proper a → ∀ honest evs', (a.vesting = none ∨ NotTerminated w0.c.foundation evs') →
        Lockup.getOwnerAccountId (Lockup.run (lockupCfg cfg honest id) acc.lockup evs').c = a.owner ∧
        ∀ e : Lockup.Env, e.now < two64 - 1 →
          (∀ r, a.releaseDuration = some r → releaseStart a + r < two64) →
          Lockup.getLockedAmount e (Lockup.run (lockupCfg cfg honest id) acc.lockup evs').c =
            .ok (agreed att a e.now)) := by
  obtain ⟨a, h1, h2, h3⟩ := ordered hs evs hacc
  refine ⟨_, a, h1, rfl, fun hp honest evs' hn => ?_⟩
  obtain ⟨g1, g2, g3, g4, g5, g6, g7, g8⟩ := intact (h3 honest) hp hn
  refine ⟨g1, fun e he hr => ?_⟩
  have hreach : Lockup.Reachable (lockupCfg cfg honest id) (newArgs w0.c a)
      (Lockup.run (lockupCfg cfg honest id) acc.lockup evs') := ⟨_, _, h3 honest, rfl⟩
  rw [Lockup.C20_locked_amount_is_documented hreach (proper_ok hp) e he]
  · congr 1
    simp only [Lockup.specLocked, g8, g3, g4, g5, g6, g7, Nat.sub_zero, moment_eq, agreed]
    congr 2
    simp only [Lockup.specUnvestedPart, g2, g3, Lockup.argVesting, newArgs, unvestedPart]
    cases a.vesting with
    | none => rfl
    | some v => cases v <;> rfl
  · intro t r ht hr'
    rw [g8] at ht
    cases ht
    rw [g5, g6, moment_eq]
    exact hr r (by rw [← g7]; exact hr')

/-- **C112 (everything is paid out).** When release and vesting have ended and no pool operation is running,
the owner can transfer any amount except the storage reserve of 3.5 NEAR, to anybody. -/
theorem C112_paid_out {cfg : Cfg} {w0 : World} (hs : Started cfg w0) (evs : List Ev)
    {id : AccountId} {acc : Created} (hacc : (run cfg w0 evs).accounts.get id = some acc) :
    ∃ att a, Asked cfg w0 evs acc.caller att a ∧ acc.lockup.bal = att ∧
      (Proper a → ∀ honest evs', (a.vesting = none ∨ NotTerminated w0.c.foundation evs') →
        let w := Lockup.run (lockupCfg cfg honest id) acc.lockup evs'
        releaseStart a + a.releaseDuration.getD 0 ≤ w.now →
        (∀ vs, a.vesting = some (.schedule vs) → vs.finish ≤ w.now) →
        (∀ si, w.c.staking = some si → si.busy = false) → a.owner ≠ id →
        ∀ x r, 0 < x → x + 35 * 10 ^ 23 ≤ w.bal → w.bal + Lockup.knownDeposited w.c < two128 →
          cfg.validAccountId r = true →
          Lockup.step (lockupCfg cfg honest id) w (.call a.owner 0 (.owner (.transfer x r))) =
            { w with bal := w.bal - x, pend := w.pend ++ [⟨.transfer r x, none, .sent⟩] }) := by
  obtain ⟨a, h1, h2, h3⟩ := ordered hs evs hacc
  refine ⟨_, a, h1, rfl, fun hp honest evs' hn => ?_⟩
  obtain ⟨g1, g2, g3, g4, g5, g6, g7, g8⟩ := intact (h3 honest) hp hn
  have hreach : Lockup.Reachable (lockupCfg cfg honest id) (newArgs w0.c a)
      (Lockup.run (lockupCfg cfg honest id) acc.lockup evs') := ⟨_, _, h3 honest, rfl⟩
  intro w hrel hvest hidle hne x r hx hbal hsum hr
  have hterm : ∀ u st, w.c.vesting ≠ .terminating u st := by
    intro u st hc
    rw [show w.c.vesting = _ from g2] at hc
    simp only [Lockup.argVesting] at hc
    split at hc <;> cases hc
  have hl := Lockup.C19_locked_amount_end hreach (proper_ok hp)
    (Lockup.mkEnv (lockupCfg cfg honest id) w a.owner 0 none) g8 hrel (by
      intro vs hvs
      rw [g2] at hvs
      apply hvest vs
      simp only [Lockup.argVesting, newArgs] at hvs
      split at hvs <;> cases hvs
      assumption)
  have hl0 : Lockup.getLockedAmount (Lockup.mkEnv (lockupCfg cfg honest id) w a.owner 0 none) w.c = .ok 0 := by
    rw [hl]
    congr 1
    split
    · rename_i u st hu; exact absurd hu (hterm u st)
    · rfl
  have hx := (Lockup.C23_transfer_iff (Lockup.mkEnv (lockupCfg cfg honest id) w a.owner 0 none) w.c w.c
    (some ⟨.transfer r x, none⟩) x r).mpr
    ⟨⟨g1.symm, rfl, hx, by omega, hr, ⟨_, g8⟩, hidle, hterm, hsum, ⟨0, hl0, by
      show 0 + x ≤ w.bal + 0 + Lockup.knownDeposited w.c; omega⟩, hbal⟩, rfl, rfl⟩
  have hle : Lockup.effAttached (some ⟨.transfer r x, none⟩) ≤ w.bal + 0 := by
    show x ≤ w.bal + 0; omega
  simp only [Lockup.step]
  rw [if_neg (show ¬ a.owner = (lockupCfg cfg honest id).self from hne)]
  simp only [Lockup.doCall]
  rw [hx]
  simp only
  rw [if_pos hle]
  simp only [Lockup.commit, Lockup.effAttached, Lockup.Ext.attached, Lockup.effPending, Lockup.effQueried,
    Nat.add_zero, List.nil_append]
  rw [Lockup.newFixed_same]
  right
  cases hv : w.c.vesting with
  | terminating u st => exact absurd hv (hterm u st)
  | _ => rfl

/-- **C112 (who has a say).** A call of anybody but the owner, and the foundation of the factory if vesting
was ordered, changes nothing, whoever paid for the lockup; this includes the factory. -/
theorem C112_only_the_parties {cfg : Cfg} {w0 : World} (hs : Started cfg w0) (evs : List Ev)
    {id : AccountId} {acc : Created} (hacc : (run cfg w0 evs).accounts.get id = some acc) :
    ∃ att a, Asked cfg w0 evs acc.caller att a ∧ acc.lockup.bal = att ∧
      ∀ honest evs' who x c, who ≠ a.owner → (a.vesting = none ∨ who ≠ w0.c.foundation) →
        Lockup.step (lockupCfg cfg honest id) (Lockup.run (lockupCfg cfg honest id) acc.lockup evs')
          (.call who x c) = Lockup.run (lockupCfg cfg honest id) acc.lockup evs' := by
  obtain ⟨a, h1, h2, h3⟩ := ordered hs evs hacc
  refine ⟨_, a, h1, rfl, fun honest evs' who x c hw hf => ?_⟩
  have hreach : Lockup.Reachable (lockupCfg cfg honest id) (newArgs w0.c a)
      (Lockup.run (lockupCfg cfg honest id) acc.lockup evs') := ⟨_, _, h3 honest, rfl⟩
  generalize Lockup.run (lockupCfg cfg honest id) acc.lockup evs' = w at hreach
  obtain ⟨ho, hfd⟩ := Lockup.C33_roles_are_fixed hreach
  simp only [Lockup.step]
  split
  · rfl
  · rename_i hself
    simp only [Lockup.doCall]
    split
    · rename_i c' eff hx
      exfalso
      have hau := (Lockup.C33_authorization hx).2.2
      cases c with
      | owner oc => exact hw (hau.trans ho)
      | foundation fc =>
        have hau : w.c.foundation = some who := hau
        rcases hfd with hfd | ⟨hfd, _⟩
        · rw [hfd] at hau
          simp only [newArgs] at hau
          split at hau
          · rename_i hv
            rcases hf with hf | hf
            · rw [hf] at hv; cases hv
            · cases hau; exact hf rfl
          · cases hau
        · rw [hfd] at hau; cases hau
      | callback cb => exact hself hau
    · rfl

/-! ## A concrete order -/

/-- Locked until 2027, released over two years, vesting from 2023 to 2030 with a cliff in 2024. -/
def bobArgs : CreateArgs :=
  ⟨"bob", 1000, some 1800000000000000000, some (.schedule ⟨1680000000000000000, 1710000000000000000,
    1900000000000000000⟩), some 60000000000000000, none⟩

def bobId : AccountId := lockupId demoSha "lockup.near" "bob"

/-- `payer` orders the lockup with 10 NEAR and it is created. -/
def demoOrder : List Ev := [.create "payer" (10 * 10 ^ 24) bobArgs, .deliver 0 true]

/-- A history of the lockup: Bob tries to take tokens early, time passes, tokens arrive, the payer tries
to terminate the vesting. -/
def demoLife : List Lockup.Ev :=
  [.call "bob" 0 (.owner (.transfer 1 "bob")), .tick 130000000000000000, .income 7,
   .call "payer" 0 (.foundation (.terminateVesting none))]

/-- The lockup exists and all hypotheses hold; at the end of 2027 half of the release is over and
7/22 of the tokens are unvested; in 2029 the vesting decides; in 2030 nothing is locked. -/
example :
    ((run demoCfg demo0 demoOrder).accounts.get bobId).isSome = true ∧ Proper bobArgs ∧
    NotTerminated demo0.c.foundation demoLife ∧
    (∀ r, bobArgs.releaseDuration = some r → releaseStart bobArgs + r < two64) ∧
    agreed (10 * 10 ^ 24) bobArgs 1799999999999999999 = 10 * 10 ^ 24 ∧
    agreed (10 * 10 ^ 24) bobArgs 1830000000000000000 = 5 * 10 ^ 24 ∧
    agreed (10 * 10 ^ 24) bobArgs 1845000000000000000 = 2500000000000000000000000 ∧
    agreed (10 * 10 ^ 24) bobArgs 1890000000000000000 = 454545454545454545454545 ∧
    agreed (10 * 10 ^ 24) bobArgs 1900000000000000000 = 0 := by
  refine ⟨by decide +kernel, ?_, ?_, ?_, by decide +kernel, by decide +kernel, by decide +kernel,
    by decide +kernel, by decide +kernel⟩
  · intro v hv
    cases hv
    exact ⟨_, rfl, by decide, by decide, by decide⟩
  · intro att arg hm
    have h : ∀ ev ∈ demoLife, ∀ x y, ev = .call "foundation" x y → False := by
      intro ev hev x y he
      subst he
      simp [demoLife] at hev
    exact h _ hm _ _ rfl
  · intro r hr
    cases hr
    decide

/-- In 2030 the hypotheses of `C112_paid_out` hold and Bob takes everything but the reserve; before, in 2027,
the same call does nothing, and the payer never has a say. -/
example :
    let lc := lockupCfg demoCfg true bobId
    ((run demoCfg demo0 demoOrder).accounts.get bobId).any (fun acc => decide (
      let w := Lockup.run lc acc.lockup demoLife
      let w' := Lockup.run lc acc.lockup (demoLife ++ [.tick 70000000000000000])
      releaseStart bobArgs + bobArgs.releaseDuration.getD 0 ≤ w'.now ∧ 1900000000000000000 ≤ w'.now ∧
      w'.c.staking = none ∧ bobArgs.owner ≠ bobId ∧ w'.bal = 10 * 10 ^ 24 + 7 ∧
      w'.bal + Lockup.knownDeposited w'.c < two128 ∧ demoCfg.validAccountId "carol" = true ∧
      (Lockup.step lc w' (.call "bob" 0 (.owner (.transfer (65 * 10 ^ 23 + 7) "carol")))).bal =
        35 * 10 ^ 23 ∧
      (Lockup.step lc w (.call "bob" 0 (.owner (.transfer (65 * 10 ^ 23 + 7) "carol")))).bal = w.bal ∧
      acc.caller = "payer" ∧ "payer" ≠ bobArgs.owner ∧ "payer" ≠ demo0.c.foundation)) = true := by
  decide +kernel

end Verif.LockupFactory
