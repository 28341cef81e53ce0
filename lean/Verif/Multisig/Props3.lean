import Verif.Multisig.Props2

/-!
# Multisig: initialization, adding, persistence of requests, joint execution, lock-out (C80 to C84)
-/

namespace Verif.Multisig

open Verif

/-! ## C80 -/

/-- **C80.** `new` succeeds exactly without deposit, on a contract without state and with a `u32`
threshold; then the threshold is as given, every key may have twelve requests, and nothing has been
requested. (The threshold is not compared with the number of keys, and may be zero.) -/
theorem C80_new_exact (att : Nat) (ex : Bool) (n : Nat) :
    ((∃ s, new att ex n = .ok s) ↔ att = 0 ∧ ex = false ∧ n < 2 ^ 32) ∧
    ∀ s, new att ex n = .ok s → getNumConfirmations s = n ∧ s.limit = 12 ∧ getRequestNonce s = 0 ∧
      listRequestIds s = [] ∧ (∀ id, getRequest s id = .error "No such request") ∧
      (∀ id, getConfirmations s id = .error "No such request") ∧ ∀ k, getNumRequestsPk s k = 0 := by
  have h32 : two32 = 2 ^ 32 := rfl
  constructor
  · simp only [new, bind_ok, require_ok, pure_ok, h32]
    constructor
    · rintro ⟨s, _, h1, _, h2, _, h3, _⟩; exact ⟨h1, h3, h2⟩
    · rintro ⟨h1, h2, h3⟩; exact ⟨_, (), h1, (), h3, (), h2, rfl⟩
  · intro s h
    simp only [new, bind_ok, require_ok, pure_ok] at h
    obtain ⟨_, _, _, _, _, _, rfl⟩ := h
    exact ⟨rfl, rfl, rfl, rfl, fun _ => rfl, fun _ => rfl, fun _ => rfl⟩

example : (new 0 false 2).toBool = true ∧ (new 1 false 2).toBool = false ∧
    (new 0 true 2).toBool = false ∧ (new 0 false (2 ^ 32)).toBool = false := by decide +kernel

/-! ## C81 -/

/-- The numbers of an action fit the types of their JSON fields: `U128` for amounts and allowances, `U64`
for gas, `u32` for the configuration. -/
def Fits : Action → Prop
  | .transfer a => a < 2 ^ 128
  | .createAccount => True
  | .deployContract _ => True
  | .addKey _ none => True
  | .addKey _ (some ⟨none, _, _⟩) => True
  | .addKey _ (some ⟨some al, _, _⟩) => al < 2 ^ 128
  | .deleteKey _ => True
  | .functionCall _ _ d g => d < 2 ^ 128 ∧ g < 2 ^ 64
  | .setNumConfirmations n => n < 2 ^ 32
  | .setActiveRequestsLimit n => n < 2 ^ 32

theorem inRange_iff (a : Action) : a.inRange = true ↔ Fits a := by
  have h128 : two128 = 2 ^ 128 := rfl
  have h64 : two64 = 2 ^ 64 := rfl
  have h32 : two32 = 2 ^ 32 := rfl
  cases a with
  | addKey k p =>
    cases p with
    | none => simp [Action.inRange, Fits]
    | some p =>
      obtain ⟨al, r, ms⟩ := p
      cases al <;> simp [Action.inRange, Fits, h128]
  | _ => simp [Action.inRange, Fits, h128, h64, h32]

/-- **C81, accepted requests.** `add_request` is accepted exactly when the account itself calls without
deposit, the numbers fit their types, the key has fewer pending requests than the limit, and an id is
left. The content of the request is not examined any further at this point. -/
theorem C81_add_request_accepted {self : AccountId} {n : Nat} {w : World} (h : Reachable self n w)
    (who : AccountId) (k : PublicKey) (att : Nat) (host : Bool) (q : Request) :
    (∃ r, exec (mkEnv self w who k att host) w.c (.addRequest q) = .ok r) ↔
      att = 0 ∧ who = self ∧ (∀ a ∈ q.actions, Fits a) ∧
      numPending w.c k < w.c.limit ∧ getRequestNonce w.c + 1 < 2 ^ 32 := by
  rw [C43_add_request_iff h, List.all_eq_true]
  simp only [inRange_iff]
  rfl

/-- **C81, effect.** The request is stored under the next id, without confirmations, and counted for the
key that signed; everything else is as before and nothing is executed. -/
theorem C81_add_request_effect {self : AccountId} {w : World} {who : AccountId} {k : PublicKey}
    {att : Nat} {host : Bool} {q : Request} {r : Res}
    (hr : exec (mkEnv self w who k att host) w.c (.addRequest q) = .ok r) :
    r.id = getRequestNonce w.c ∧ r.batch = none ∧ getRequestNonce r.c = getRequestNonce w.c + 1 ∧
    (∀ id, getRequest r.c id = if id = r.id then .ok q else getRequest w.c id) ∧
    (∀ id, getConfirmations r.c id = if id = r.id then .ok [] else getConfirmations w.c id) ∧
    (∀ k', getNumRequestsPk r.c k' = getNumRequestsPk w.c k' + if k' = k then 1 else 0) ∧
    getNumConfirmations r.c = getNumConfirmations w.c ∧ r.c.limit = w.c.limit := by
  cases exec_ok.mp hr with
  | add q h1 h2 =>
    refine ⟨rfl, rfl, rfl, ?_, ?_, ?_, rfl, rfl⟩
    · intro id
      simp only [getRequest, added, Book.add, UMap.get_insert]
      by_cases hid : w.c.book.nonce = id
      · simp [hid, pure, Except.pure]
      · simp [hid, Ne.symm hid]
    · intro id
      simp only [getConfirmations, added, Book.add, UMap.get_insert]
      by_cases hid : w.c.book.nonce = id
      · simp [hid, pure, Except.pure]
      · simp [hid, Ne.symm hid]
    · intro k'
      simp only [getNumRequestsPk, added, Book.add, UMap.get_insert, mkEnv]
      by_cases hk : k = k'
      · simp [hk]
      · simp [hk, Ne.symm hk]

/-- **C81, in one call.** `add_request_and_confirm` is accepted exactly when `add_request` is and the new
request can then be confirmed with the same key; it returns the id of the request and does what the two
calls do. -/
theorem C81_add_and_confirm {self : AccountId} {w : World} (who : AccountId) (k : PublicKey)
    (att : Nat) (host : Bool) (q : Request) (r : Res) :
    exec (mkEnv self w who k att host) w.c (.addRequestAndConfirm q) = .ok r ↔
      ∃ r1 r2, exec (mkEnv self w who k att host) w.c (.addRequest q) = .ok r1 ∧
        exec (mkEnv self w who k att host) r1.c (.confirm r1.id) = .ok r2 ∧
        r.c = r2.c ∧ r.id = r1.id ∧ r.batch = r2.batch := by
  constructor
  · intro h
    cases exec_ok.mp h with
    | addConfirm q s' b h1 h2 h3 =>
      exact ⟨_, _, exec_ok.mpr (.add q h1 h2), exec_ok.mpr (.confirm _ s' b h1 h3), rfl, rfl, rfl⟩
  · rintro ⟨r1, r2, h1, h2, h3, h4, h5⟩
    cases exec_ok.mp h1 with
    | add q g1 g2 =>
      cases exec_ok.mp h2 with
      | confirm id s' b g3 g4 =>
        obtain ⟨c, i, bb⟩ := r
        simp only at h3 h4 h5
        subst h3 h4 h5
        exact exec_ok.mpr (.addConfirm q _ _ g1 g2 g4)

/-- A request at the upper end of the ranges is accepted, and the next larger numbers are not. -/
example :
    (exec (mkEnv "ms" demoStart "ms" "k" 0 true) demoStart.c (.addRequest ⟨"b",
      [.transfer (2 ^ 128 - 1), .functionCall "f" [] (2 ^ 128 - 1) (2 ^ 64 - 1)]⟩)).toBool = true ∧
    (exec (mkEnv "ms" demoStart "ms" "k" 0 true) demoStart.c (.addRequest ⟨"b",
      [.transfer (2 ^ 128)]⟩)).toBool = false ∧
    (exec (mkEnv "ms" demoStart "ms" "k" 0 true) demoStart.c (.addRequestAndConfirm demoPay)).toBool
      = true := by decide +kernel

/-! ## C82 -/

theorem apply_get (l : List Action) (s : State) {id : Nat} {st : Stored PublicKey Request}
    (h : s.book.requests.get id = some st) :
    (applyActions s l).book.requests.get id =
      (if .deleteKey st.signer ∈ l then none else some st) ∧
    (applyActions s l).book.confs.get id =
      (if .deleteKey st.signer ∈ l then none else s.book.confs.get id) := by
  have gone : ∀ (l : List Action) (s : State) (id : Nat), s.book.requests.get id = none →
      s.book.confs.get id = none → (applyActions s l).book.requests.get id = none ∧
      (applyActions s l).book.confs.get id = none := by
    intro l s id h1 h2
    obtain ⟨g1, g2, _⟩ := apply_facts l s
    constructor
    · cases hh : (applyActions s l).book.requests.get id with
      | none => rfl
      | some x => have := g1 _ _ hh; rw [h1] at this; cases this
    · cases hh : (applyActions s l).book.confs.get id with
      | none => rfl
      | some x => have := g2 _ _ hh; rw [h2] at this; cases this
  induction l generalizing s with
  | nil => simp [applyActions, h]
  | cons a t ih =>
    cases a with
    | deleteKey k =>
      have e1 := Book.purge_get s.book (fun k => k) k id
      have e2 := Book.purge_confs s.book (fun k => k) k id
      simp only [h] at e1 e2
      by_cases hk : st.signer = k
      · rw [if_pos hk] at e1 e2
        have := gone t { s with book := s.book.purge (fun k => k) k } id e1 e2
        simp only [applyActions, hk, List.mem_cons, true_or, if_true]
        exact this
      · rw [if_neg hk] at e1 e2
        have := ih { s with book := s.book.purge (fun k => k) k } e1
        simp only [applyActions, List.mem_cons, Action.deleteKey.injEq, hk, false_or]
        rw [this.1, this.2, e2]
        exact ⟨rfl, rfl⟩
    | setNumConfirmations n => simpa [applyActions] using ih { s with numConfirmations := n } h
    | setActiveRequestsLimit n => simpa [applyActions] using ih { s with limit := n } h
    | transfer x => simpa [applyActions] using ih s h
    | createAccount => simpa [applyActions] using ih s h
    | deployContract x => simpa [applyActions] using ih s h
    | addKey k p => simpa [applyActions] using ih s h
    | functionCall m x d g => simpa [applyActions] using ih s h

/-- **C82.** An event leaves a pending request, with its author and time, and its confirmations alone,
except that a successful confirming call for this very request adds its key at the end; the request
disappears only by being deleted or executed, or when another request that removes the author's key
from the account executes. -/
theorem C82_pending_persists {self : AccountId} {n : Nat} {w : World} (h : Reachable self n w)
    (ev : Ev) {id : Nat} {st : Stored PublicKey Request} {cs : List PublicKey}
    (hq : w.c.book.requests.get id = some st) (hc : w.c.book.confs.get id = some cs) :
    ((step self w ev).c.book.requests.get id = some st ∧
      ((step self w ev).c.book.confs.get id = some cs ∨
        ∃ k, Confirms self w ev k id ∧ k ∉ cs ∧
          (step self w ev).c.book.confs.get id = some (cs ++ [k]))) ∨
    (id ∉ listRequestIds (step self w ev).c ∧
      (Deletes self w ev id ∨ (∃ b, (step self w ev).issued = (id, b) :: w.issued) ∨
        ∃ id' b, id' ≠ id ∧ (step self w ev).issued = (id', b) :: w.issued ∧
          b.receiver = self ∧ .deleteKey st.signer ∈ b.actions)) := by
  have hm := reachable_minv h
  have hlt : id < w.c.book.nonce := hm.book.lt _ _ hq
  cases ev with
  | tick dt => exact .inl ⟨hq, .inl hc⟩
  | call who pk att host c =>
    -- a confirmation in a state that agrees on the request
    have conf : ∀ (s : State) (id' : Nat) (s' : State) (b : Option Batch),
        s.book.requests.get id = some st → s.book.confs.get id = some cs →
        ConfRel (mkEnv self w who pk att host) s id' s' b →
        (s'.book.requests.get id = some st ∧ (s'.book.confs.get id = some cs ∨
          (id' = id ∧ pk ∉ cs ∧ s'.book.confs.get id = some (cs ++ [pk])))) ∨
        (s'.book.requests.get id = none ∧ ∃ bb, b = some bb ∧ (id' = id ∨
          (bb.receiver = self ∧ .deleteKey st.signer ∈ bb.actions))) := by
      intro s id' s' b k1 k2 hr
      cases hr with
      | stored st' cs' h1 h2 h3 h4 h5 h6 =>
        left
        refine ⟨k1, ?_⟩
        by_cases hid : id' = id
        · subst hid
          rw [k2] at h3; cases h3
          right
          exact ⟨rfl, h4, by simp [Book.confirm, mkEnv]⟩
        · left
          simp only [Book.confirm]
          rw [UMap.get_insert_ne hid]; exact k2
      | executed st' cs' h1 h2 h3 h4 h5 h6 h7 h8 =>
        by_cases hid : id' = id
        · subst hid
          right
          obtain ⟨g1, _⟩ := apply_facts st'.request.actions
            { s with book := s.book.remove (fun k => k) id' st' }
          refine ⟨?_, _, rfl, .inl rfl⟩
          cases hg : (applyActions { s with book := s.book.remove (fun k => k) id' st' }
              st'.request.actions).book.requests.get id' with
          | none => rfl
          | some x => have := g1 _ _ hg; simp [Book.remove] at this
        · have r1 : ({ s with book := s.book.remove (fun k => k) id' st' } : State).book.requests.get id
              = some st := by
            simp only [Book.remove]; rw [UMap.get_remove_ne hid]; exact k1
          have r2 : ({ s with book := s.book.remove (fun k => k) id' st' } : State).book.confs.get id
              = some cs := by
            simp only [Book.remove]; rw [UMap.get_remove_ne hid]; exact k2
          obtain ⟨g1, g2⟩ := apply_get st'.request.actions _ r1
          by_cases hd : .deleteKey st.signer ∈ st'.request.actions
          · right
            rw [if_pos hd] at g1
            refine ⟨g1, _, rfl, .inr ⟨?_, ?_⟩⟩
            · exact h7 _ hd
            · exact List.mem_filterMap.mpr ⟨_, hd, rfl⟩
          · left
            rw [if_neg hd] at g1 g2
            exact ⟨g1, .inl (g2.trans r2)⟩
    rcases step_call (self := self) (w := w) (who := who) (pk := pk) (att := att) (host := host)
      (c := c) with ⟨r, hr, heq⟩ | ⟨_, heq⟩
    · obtain ⟨f1, f2, _⟩ := exec_facts hr
      have hw : who = self := f1.symm
      have ha : att = 0 := f2
      subst hw ha
      rw [heq]
      cases hr with
      | add q h1 h2 =>
        left
        refine ⟨?_, .inl ?_⟩
        · simp only [added, Book.add]; rw [UMap.get_insert_ne (by omega)]; exact hq
        · simp only [added, Book.add]; rw [UMap.get_insert_ne (by omega)]; exact hc
      | addConfirm q s' b h1 h2 h3 =>
        have a1 : (added (mkEnv who w who pk 0 host) w.c q).book.requests.get id = some st := by
          simp only [added, Book.add]; rw [UMap.get_insert_ne (by omega)]; exact hq
        have a2 : (added (mkEnv who w who pk 0 host) w.c q).book.confs.get id = some cs := by
          simp only [added, Book.add]; rw [UMap.get_insert_ne (by omega)]; exact hc
        rcases conf _ _ _ _ a1 a2 h3 with ⟨g1, g2 | ⟨g2, _⟩⟩ | ⟨g1, bb, rfl, g2 | ⟨g2, g3⟩⟩
        · exact .inl ⟨g1, .inl g2⟩
        · omega
        · omega
        · refine .inr ⟨?_, .inr (.inr ⟨_, bb, ?_, rfl, g2, g3⟩)⟩
          · simp [listRequestIds, UMap.mem_keys, g1]
          · show w.c.book.nonce ≠ id
            omega
      | delete id' st' cs' h1 h2 h3 h4 h5 h6 =>
        by_cases hid : id' = id
        · subst hid
          right
          refine ⟨by simp [listRequestIds, Book.remove, UMap.mem_keys], .inl ?_⟩
          exact ⟨pk, host, _, rfl, exec_ok.mpr (.delete id' st' cs' h1 h2 h3 h4 h5 h6)⟩
        · left
          simp only [Book.remove]
          rw [UMap.get_remove_ne hid, UMap.get_remove_ne hid]
          exact ⟨hq, .inl hc⟩
      | confirm id' s' b h1 h2 =>
        rcases conf _ _ _ _ hq hc h2 with ⟨g1, g2 | ⟨rfl, g2, g3⟩⟩ | ⟨g1, bb, rfl, g2 | ⟨g2, g3⟩⟩
        · exact .inl ⟨g1, .inl g2⟩
        · refine .inl ⟨g1, .inr ⟨pk, ⟨host, _, .inl ⟨rfl, exec_ok.mpr (.confirm _ _ _ h1 h2)⟩⟩, g2, g3⟩⟩
        · subst g2
          exact .inr ⟨by simp [listRequestIds, UMap.mem_keys, g1], .inr (.inl ⟨bb, rfl⟩)⟩
        · refine .inr ⟨by simp [listRequestIds, UMap.mem_keys, g1], ?_⟩
          by_cases hid : id' = id
          · subst hid; exact .inr (.inl ⟨bb, rfl⟩)
          · exact .inr (.inr ⟨id', bb, hid, rfl, g2, g3⟩)
    · rw [heq]; exact .inl ⟨hq, .inl hc⟩

/-- All the cases of C82 occur: `k1`'s payment stays, is confirmed, deleted, or dropped together with
its author. -/
example :
    (run "ms" demoStart demoAdd).c.book.confs.get 0 = some ["k1"] ∧
    (run "ms" demoStart (demoAdd ++ [demoConfirm])).issued.map Prod.fst = [0] ∧
    listRequestIds (run "ms" demoStart (demoAdd ++ [.call "ms" "k2" 0 true (.addRequestAndConfirm demoDrop),
      .call "ms" "k3" 0 true (.confirm 1)])).c = [] ∧
    (run "ms" demoStart (demoAdd ++ [.call "ms" "k2" 0 true (.addRequestAndConfirm demoDrop),
      .call "ms" "k3" 0 true (.confirm 1)])).issued = [(1, ⟨"ms", [.deleteKey "k1"]⟩)] := by
  decide +kernel

/-! ## C83 -/

/-- **C83.** If a pending request is executable and distinct keys that have not confirmed it would bring
it to the threshold, then it executes when these keys confirm it, one after the other in any order,
provided the host takes the batch. -/
theorem C83_keys_execute_pending {self : AccountId} {n : Nat} {w : World} (h : Reachable self n w)
    {id : Nat} {q : Request} {cs : List PublicKey} (hq : getRequest w.c id = .ok q)
    (hcs : getConfirmations w.c id = .ok cs) (hex : Executable self q) (ks : List PublicKey)
    (hnd : ks.Nodup) (hne : ks ≠ []) (hks : ∀ k ∈ ks, k ∉ cs)
    (hnum : getNumConfirmations w.c ≤ cs.length + ks.length) :
    (id, q.toBatch) ∈ (run self w (ks.map (fun k => .call self k 0 true (.confirm id)))).issued := by
  have hm := reachable_minv h
  unfold getRequest at hq
  unfold getConfirmations at hcs
  cases hg : w.c.book.requests.get id with
  | none => rw [hg] at hq; cases hq
  | some st =>
    cases hc : w.c.book.confs.get id with
    | none => rw [hc] at hcs; cases hcs
    | some cs' =>
      rw [hg] at hq; rw [hc] at hcs
      cases hq; cases hcs
      clear h
      induction ks generalizing w cs with
      | nil => exact absurd rfl hne
      | cons k t ih =>
        have hlen := hm.len id cs hc
        have hmod : cs.length % two32 = cs.length := Nat.mod_eq_of_lt (by omega)
        have h3 := hks k List.mem_cons_self
        simp only [List.map_cons, run]
        by_cases hn : w.c.numConfirmations ≤ cs.length + 1
        · apply issued_mono
          have hr : ExecRel (mkEnv self w self k 0 true) w.c (.confirm id) ⟨_, id, _⟩ :=
            .confirm id _ _ rfl (.executed st cs rfl hg hc h3 (by rw [hmod]; exact hlen)
              (by rw [hmod]; exact hn) hex rfl)
          simp only [step, exec_ok.mpr hr, logged]
          exact List.mem_cons_self
        · have hr : ExecRel (mkEnv self w self k 0 true) w.c (.confirm id) ⟨_, id, _⟩ :=
            .confirm id _ _ rfl (.stored st cs rfl hg hc h3 (by rw [hmod]; exact hlen)
              (by rw [hmod]; omega))
          have hst : step self w (.call self k 0 true (.confirm id)) =
              { w with c := { w.c with book := w.c.book.confirm id cs k } } := by
            simp only [step, exec_ok.mpr hr, logged]; rfl
          have hinv' := minv_step (self := self) (.call self k 0 true (.confirm id)) hm
          rw [hst] at hinv' ⊢
          simp only [List.length_cons, getNumConfirmations] at hnum
          refine ih (w := { w with c := { w.c with book := w.c.book.confirm id cs k } })
            (cs := cs ++ [k]) (List.nodup_cons.mp hnd).2 ?_ ?_ ?_ hinv' hg ?_
          · rintro rfl
            simp only [List.length_nil] at hnum
            omega
          · intro k' hk' hmem
            rcases List.mem_append.mp hmem with hmem | hmem
            · exact hks k' (List.mem_cons_of_mem _ hk') hmem
            · rw [List.mem_singleton] at hmem
              subst hmem
              exact (List.nodup_cons.mp hnd).1 hk'
          · show w.c.numConfirmations ≤ (cs ++ [k]).length + t.length
            simp only [List.length_append, List.length_cons, List.length_nil]
            omega
          · simp [Book.confirm]

example : Reachable "ms" 2 (run "ms" demoStart demoAdd) ∧ Executable "ms" demoPay ∧
    (getRequest (run "ms" demoStart demoAdd).c 0 = .ok demoPay) ∧
    getConfirmations (run "ms" demoStart demoAdd).c 0 = .ok ["k1"] ∧
    getNumConfirmations (run "ms" demoStart demoAdd).c ≤ ["k1"].length + ["k7", "k2"].length :=
  ⟨⟨demoStart, demoAdd, demo_started, rfl⟩, by simp [Executable, demoPay, Allowed], rfl, rfl,
    by decide +kernel⟩

/-! ## C84 -/

/-- Fewer access keys than confirmations are needed, none of them a full access key, and nothing that
other keys have done is under way. -/
structure KLocked (kw : KWorld) : Prop where
  inv : MInv kw.w.c
  idle : kw.queue = []
  few : kw.keys.len < kw.w.c.numConfirmations
  limited : ∀ k p, kw.keys.get k = some p → p ≠ .full
  conf : ∀ id cs k, kw.w.c.book.confs.get id = some cs → k ∈ cs → k ∈ kw.keys.keys

theorem klocked_conf {cfg : KCfg} {kw : KWorld} (h : KLocked kw) {pk : PublicKey} {host : Bool}
    (hpk : pk ∈ kw.keys.keys) {s s' : State} {id : Nat} {b : Option Batch} (hinv : MInv s)
    (hn : s.numConfirmations = kw.w.c.numConfirmations)
    (hcf : ∀ id cs k, s.book.confs.get id = some cs → k ∈ cs → k ∈ kw.keys.keys)
    (hr : ConfRel (mkEnv cfg.self kw.w cfg.self pk 0 host) s id s' b) :
    b = none ∧ s'.numConfirmations = kw.w.c.numConfirmations ∧
    ∀ id cs k, s'.book.confs.get id = some cs → k ∈ cs → k ∈ kw.keys.keys := by
  cases hr with
  | stored st cs h1 h2 h3 h4 h5 h6 =>
    refine ⟨rfl, hn, ?_⟩
    intro id' cs' k hc hk
    simp only [Book.confirm, UMap.get_insert] at hc
    split at hc
    · cases hc
      rcases List.mem_append.mp hk with hk | hk
      · exact hcf _ _ _ h3 hk
      · rw [List.mem_singleton.mp hk]; exact hpk
    · exact hcf _ _ _ hc hk
  | executed st cs h1 h2 h3 h4 h5 h6 h7 h8 =>
    exfalso
    have hnd : (pk :: cs).Nodup := List.nodup_cons.mpr ⟨h4, hinv.book.nodup _ _ h3⟩
    have hsub : (pk :: cs) ⊆ kw.keys.keys := by
      intro k hk
      rcases List.mem_cons.mp hk with rfl | hk
      · exact hpk
      · exact hcf _ _ _ h3 hk
    have := (List.subperm_of_subset hnd hsub).length_le
    have hf := h.few
    rw [UMap.len_eq_keys] at hf
    have := Nat.mod_le cs.length two32
    simp only [List.length_cons] at *
    omega

/-- A call by a key of the account executes nothing and keeps the account locked. -/
theorem klocked_exec {cfg : KCfg} {kw : KWorld} (h : KLocked kw) {pk : PublicKey} {host : Bool}
    (hpk : pk ∈ kw.keys.keys) {c : Call} {r : Res}
    (hr : ExecRel (mkEnv cfg.self kw.w cfg.self pk 0 host) kw.w.c c r) :
    r.batch = none ∧ r.c.numConfirmations = kw.w.c.numConfirmations ∧
    ∀ id cs k, r.c.book.confs.get id = some cs → k ∈ cs → k ∈ kw.keys.keys := by
  cases hr with
  | add q h1 h2 => exact ⟨rfl, rfl, fun id cs k hc hk => h.conf id cs k (added_confs hc hk) hk⟩
  | addConfirm q s' b h1 h2 h3 =>
    exact klocked_conf h hpk (h.inv.add h2) rfl
      (fun id cs k hc hk => h.conf id cs k (added_confs hc hk) hk) h3
  | delete id st cs h1 h2 h3 h4 h5 h6 =>
    have hs := remove_sub (b := kw.w.c.book) (id := id) (st := st)
    exact ⟨rfl, rfl, fun id' cs' k hc hk => h.conf _ _ _ (hs.2 _ _ hc) hk⟩
  | confirm id s' b h1 h2 => exact klocked_conf h hpk h.inv rfl h.conf h2

theorem klocked_step {cfg : KCfg} {kw : KWorld} (h : KLocked kw) (ev : KEv) :
    KLocked (kstep cfg kw ev) ∧ (kstep cfg kw ev).w.issued = kw.w.issued ∧
    (kstep cfg kw ev).keys = kw.keys := by
  cases ev with
  | tick dt => exact ⟨⟨h.inv, h.idle, h.few, h.limited, h.conf⟩, rfl, rfl⟩
  | deliver i hosts =>
    have : kstep cfg kw (.deliver i hosts) = kw := by simp only [kstep, h.idle, List.getElem?_nil]
    rw [this]
    exact ⟨h, rfl, rfl⟩
  | foreign who pk att host c =>
    simp only [kstep]
    split
    · exact ⟨h, rfl, rfl⟩
    · rename_i hw
      have : step cfg.self kw.w (.call who pk att host c) = kw.w := by
        rcases step_call (self := cfg.self) (w := kw.w) (who := who) (pk := pk) (att := att)
          (host := host) (c := c) with ⟨r, hr, _⟩ | ⟨_, heq⟩
        · exact absurd (exec_facts hr).1.symm hw
        · exact heq
      rw [this]
      exact ⟨⟨h.inv, h.idle, h.few, h.limited, h.conf⟩, rfl, rfl⟩
  | sign pk acts hosts =>
    simp only [kstep]
    split
    · exact ⟨h, rfl, rfl⟩
    · rename_i p hp
      split
      · rename_i hal
        have hpk : pk ∈ kw.keys.keys := UMap.mem_keys.mpr ⟨p, hp⟩
        cases p with
        | full => exact absurd rfl (h.limited _ _ hp)
        | fn rc ms =>
          match acts, hal with
          | [.functionCall m a d g], hal =>
            simp only [permAllows, Bool.and_eq_true, decide_eq_true_eq] at hal
            obtain ⟨_, rfl⟩ := hal
            simp only [runBatch]
            cases hd : cfg.decode m a with
            | none => exact ⟨h, rfl, rfl⟩
            | some c =>
              simp only
              cases hr : exec (mkEnv cfg.self kw.w cfg.self pk 0 (hosts.headD true)) kw.w.c c with
              | error e => exact ⟨h, rfl, rfl⟩
              | ok r =>
                obtain ⟨g1, g2, g3⟩ := klocked_exec h hpk (exec_ok.mp hr)
                simp only [Option.getD_some, step, hr, logged, enqueue, g1]
                refine ⟨⟨?_, h.idle, ?_, h.limited, g3⟩, trivial, trivial⟩
                · exact h.inv.exec (exec_ok.mp hr)
                · show kw.keys.len < r.c.numConfirmations
                  rw [g2]; exact h.few
          | [], hal => simp [permAllows] at hal
          | [.transfer _], hal => simp [permAllows] at hal
          | [.createAccount], hal => simp [permAllows] at hal
          | [.deployContract _], hal => simp [permAllows] at hal
          | [.addAccessKey _ _ _ _], hal => simp [permAllows] at hal
          | [.addFullAccessKey _], hal => simp [permAllows] at hal
          | [.deleteKey _], hal => simp [permAllows] at hal
          | _ :: _ :: _, hal => simp [permAllows] at hal
      · exact ⟨h, rfl, rfl⟩

/-- **C84.** If the account has fewer access keys than confirmations are needed, none of them a full
access key, nothing is pending and no batch is under way, then whatever is signed, delivered or called
from then on, no request ever executes and the keys of the account stay as they are: the account is
lost. Initialization accepts such thresholds (C80). -/
theorem C84_locked_forever {cfg : KCfg} {n : Nat} {kw : KWorld} (h : Reachable cfg.self n kw.w)
    (hq : kw.queue = []) (hnone : listRequestIds kw.w.c = [])
    (hfew : kw.keys.len < getNumConfirmations kw.w.c)
    (hlim : ∀ k p, kw.keys.get k = some p → p ≠ .full) (evs : List KEv) :
    (krun cfg kw evs).w.issued = kw.w.issued ∧ (krun cfg kw evs).keys = kw.keys := by
  have hm := reachable_minv h
  have hl : KLocked kw := by
    refine ⟨hm, hq, hfew, hlim, ?_⟩
    intro id cs k hc hk
    exfalso
    have h1 := hm.book.ids id
    rw [hc] at h1
    have h2 : id ∈ listRequestIds kw.w.c := UMap.mem_keys.mpr (Option.isSome_iff_exists.mp (by simpa using h1))
    rw [hnone] at h2
    cases h2
  clear h hq hnone hfew hlim hm
  induction evs generalizing kw with
  | nil => exact ⟨rfl, rfl⟩
  | cons ev t ih =>
    obtain ⟨h1, h2, h3⟩ := klocked_step (cfg := cfg) hl ev
    obtain ⟨g1, g2⟩ := ih h1
    exact ⟨g1.trans h2, g2.trans h3⟩

/-- One restricted key and a threshold of two. -/
def demoLonely : KWorld :=
  { w := demoStart, keys := UMap.empty.insert "k1" demoPerm, queue := [], log := [] }

example : Reachable demoKCfg.self 2 demoLonely.w ∧ demoLonely.queue = [] ∧
    listRequestIds demoLonely.w.c = [] ∧
    demoLonely.keys.len < getNumConfirmations demoLonely.w.c ∧
    (∀ k p, demoLonely.keys.get k = some p → p ≠ .full) ∧
    (krun demoKCfg demoLonely [demoTx "k1" "add_request" 0]).log.length = 1 := by
  refine ⟨⟨demoStart, [], demo_started, rfl⟩, rfl, by decide +kernel, by decide +kernel, ?_,
    by decide +kernel⟩
  intro k p hp
  simp only [demoLonely, UMap.get_insert] at hp
  split at hp
  · cases hp; simp [demoPerm]
  · cases hp

end Verif.Multisig
