import Verif.Multisig.Props3

/-!
# Where the access keys of the multisig account come from (lemmas)
-/

namespace Verif.Multisig

open Verif

/-- The permission that an action grants to a key. -/
def PAction.grants : PAction → Option (PublicKey × Perm)
  | .addAccessKey k _ r ms => some (k, .fn r ms)
  | .addFullAccessKey k => some (k, .full)
  | _ => none

theorem subset_logged {r : Res} {l : List (Nat × Batch)} : l ⊆ logged r l := by
  unfold logged
  cases r.batch with
  | none => exact fun _ h => h
  | some b => exact List.subset_cons_self _ _

theorem issued_subset {self : AccountId} {w : World} {ev : Ev} : w.issued ⊆ (step self w ev).issued := by
  cases ev with
  | tick dt => exact fun _ h => h
  | call who pk att host c =>
    rcases step_call (self := self) (w := w) (who := who) (pk := pk) (att := att) (host := host)
      (c := c) with ⟨r, _, h⟩ | ⟨_, h⟩
    · rw [h]; exact subset_logged
    · rw [h]; exact fun _ h => h

/-- What a batch does to log of batches, queue and keys. -/
theorem runBatch_keys (cfg : KCfg) (pk : PublicKey) (acts : List PAction) (kw kw' : KWorld)
    (hosts : List Bool) (h : runBatch cfg pk kw hosts acts = some kw') :
    kw.w.issued ⊆ kw'.w.issued ∧
    (∀ x ∈ kw'.queue, x ∈ kw.queue ∨ ∃ id, (id, x.2) ∈ kw'.w.issued ∧ x.2.receiver = cfg.self) ∧
    ∀ k p, kw'.keys.get k = some p → kw.keys.get k = some p ∨ ∃ a ∈ acts, a.grants = some (k, p) := by
  induction acts generalizing kw hosts with
  | nil =>
    simp only [runBatch, Option.some.injEq] at h
    subst h
    exact ⟨fun _ h => h, fun x hx => .inl hx, fun k p h => .inl h⟩
  | cons a t ih =>
    have key : ∀ kw1 hosts, runBatch cfg pk kw1 hosts t = some kw' → kw1.w = kw.w → kw1.queue = kw.queue →
        (∀ k p, kw1.keys.get k = some p → kw.keys.get k = some p ∨ a.grants = some (k, p)) →
        kw.w.issued ⊆ kw'.w.issued ∧
        (∀ x ∈ kw'.queue, x ∈ kw.queue ∨ ∃ id, (id, x.2) ∈ kw'.w.issued ∧ x.2.receiver = cfg.self) ∧
        ∀ k p, kw'.keys.get k = some p →
          kw.keys.get k = some p ∨ ∃ a' ∈ a :: t, a'.grants = some (k, p) := by
      intro kw1 hosts1 h1 hw hq hk
      obtain ⟨g1, g2, g3⟩ := ih kw1 hosts1 h1
      refine ⟨by rw [← hw]; exact g1, by rw [← hq]; exact g2, fun k p hp => ?_⟩
      rcases g3 k p hp with hp | ⟨a', ha, hg⟩
      · rcases hk k p hp with hp | hp
        · exact .inl hp
        · exact .inr ⟨a, List.mem_cons_self, hp⟩
      · exact .inr ⟨a', List.mem_cons_of_mem _ ha, hg⟩
    cases a with
    | transfer x => exact key kw hosts h rfl rfl (fun k p h => .inl h)
    | createAccount => cases h
    | deployContract c => cases h
    | addAccessKey k al r ms =>
      simp only [runBatch] at h
      split at h
      · refine key _ hosts h rfl rfl (fun k' p hp => ?_)
        simp only [UMap.get_insert] at hp
        split at hp
        · rename_i he; subst he; cases hp; exact .inr rfl
        · exact .inl hp
      · cases h
    | addFullAccessKey k =>
      simp only [runBatch] at h
      split at h
      · refine key _ hosts h rfl rfl (fun k' p hp => ?_)
        simp only [UMap.get_insert] at hp
        split at hp
        · rename_i he; subst he; cases hp; exact .inr rfl
        · exact .inl hp
      · cases h
    | deleteKey k =>
      simp only [runBatch] at h
      split at h
      · cases h
      · refine key _ hosts h rfl rfl (fun k' p hp => ?_)
        simp only [UMap.get_remove] at hp
        split at hp
        · cases hp
        · exact .inl hp
    | functionCall m a d g =>
      simp only [runBatch] at h
      split at h
      · cases h
      · rename_i c hc
        split at h
        · cases h
        · rename_i r hr
          obtain ⟨g1, g2, g3⟩ := ih _ _ h
          refine ⟨fun x hx => g1 (issued_subset hx), fun x hx => ?_, fun k p hp => ?_⟩
          · rcases g2 x hx with hx | hx
            · simp only [enqueue] at hx
              cases hb : r.batch with
              | none => rw [hb] at hx; exact .inl hx
              | some b =>
                rw [hb] at hx
                simp only at hx
                split at hx
                · rename_i hself
                  rcases List.mem_append.mp hx with hx | hx
                  · exact .inl hx
                  · rw [List.mem_singleton] at hx
                    subst hx
                    refine .inr ⟨r.id, g1 ?_, hself⟩
                    simp only [step, hr, logged, hb]
                    exact List.mem_cons_self
                · exact .inl hx
            · exact .inr hx
          · rcases g3 k p hp with hp | ⟨a', ha, hg⟩
            · exact .inl hp
            · exact .inr ⟨a', List.mem_cons_of_mem _ ha, hg⟩

/-- Why the account has the key `k` with permission `p`. -/
inductive Source (cfg : KCfg) (kw0 : KWorld) (evs : List KEv) (issued : List (Nat × Batch))
    (k : PublicKey) (p : Perm) : Prop
  | initial : kw0.keys.get k = some p → Source cfg kw0 evs issued k p
  | request (id : Nat) (b : Batch) (a : PAction) : (id, b) ∈ issued → b.receiver = cfg.self →
      a ∈ b.actions → a.grants = some (k, p) → Source cfg kw0 evs issued k p
  | signed (l1 : List KEv) (k' : PublicKey) (acts : List PAction) (hosts : List Bool) (l2 : List KEv)
      (a : PAction) : evs = l1 ++ .sign k' acts hosts :: l2 →
      (krun cfg kw0 l1).keys.get k' = some .full → a ∈ acts → a.grants = some (k, p) →
      Source cfg kw0 evs issued k p

theorem Source.mono {cfg : KCfg} {kw0 : KWorld} {evs : List KEv} {i1 i2 : List (Nat × Batch)}
    {k : PublicKey} {p : Perm} (hi : i1 ⊆ i2) (l : List KEv) (h : Source cfg kw0 evs i1 k p) :
    Source cfg kw0 (evs ++ l) i2 k p := by
  cases h with
  | initial h => exact .initial h
  | request id b a h1 h2 h3 h4 => exact .request id b a (hi h1) h2 h3 h4
  | signed l1 k' acts hosts l2 a h1 h2 h3 h4 =>
    exact .signed l1 k' acts hosts (l2 ++ l) a (by rw [h1]; simp) h2 h3 h4

theorem allows_full {self : AccountId} {p : Perm} {acts : List PAction}
    (h : permAllows self p acts = true) {a : PAction} (ha : a ∈ acts) (hk : a.grants ≠ none) :
    p = .full := by
  cases p with
  | full => rfl
  | fn r m =>
    exfalso
    simp only [permAllows] at h
    split at h
    · cases ‹Perm.fn r m = Perm.full›
    · rw [List.mem_singleton] at ha
      subst ha
      exact hk rfl
    · cases h

theorem issued_step {cfg : KCfg} (kw : KWorld) (ev : KEv) :
    kw.w.issued ⊆ (kstep cfg kw ev).w.issued := by
  cases ev with
  | sign pk acts hosts =>
    simp only [kstep]
    split
    · exact fun _ h => h
    · split
      · cases hb : runBatch cfg pk kw hosts acts with
        | none => exact fun _ h => h
        | some kw' => exact (runBatch_keys cfg pk acts kw kw' hosts hb).1
      · exact fun _ h => h
  | deliver i hosts =>
    simp only [kstep]
    split
    · exact fun _ h => h
    · rename_i pk b hq
      cases hb : runBatch cfg pk { kw with queue := kw.queue.eraseIdx i } hosts b.actions with
      | none => exact fun _ h => h
      | some kw' => exact (runBatch_keys cfg pk b.actions _ kw' hosts hb).1
  | foreign who pk att host c =>
    simp only [kstep]
    split
    · exact fun _ h => h
    · exact issued_subset
  | tick dt => exact fun _ h => h

theorem issued_prefix {cfg : KCfg} {kw : KWorld} {l1 l2 : List KEv} {x : Nat × Batch}
    (h : x ∈ (krun cfg kw l1).w.issued) : x ∈ (krun cfg kw (l1 ++ l2)).w.issued := by
  induction l2 using List.reverseRecOn with
  | nil => rwa [List.append_nil]
  | append_singleton l ev ih =>
    rw [← List.append_assoc, krun_snoc]
    exact issued_step _ _ ih

theorem source_run {cfg : KCfg} {n : Nat} {kw0 : KWorld} (hs : KStarted n kw0) (evs : List KEv) :
    (∀ x ∈ (krun cfg kw0 evs).queue, ∃ id, (id, x.2) ∈ (krun cfg kw0 evs).w.issued ∧
      x.2.receiver = cfg.self) ∧
    ∀ k p, (krun cfg kw0 evs).keys.get k = some p →
      Source cfg kw0 evs (krun cfg kw0 evs).w.issued k p := by
  induction evs using List.reverseRecOn with
  | nil =>
    simp only [krun]
    exact ⟨fun x hx => (by rw [hs.2.1] at hx; cases hx), fun k p h => .initial h⟩
  | append_singleton l ev ih =>
    obtain ⟨h1, h2⟩ := ih
    rw [krun_snoc]
    generalize hkw : krun cfg kw0 l = kw at h1 h2 ⊢
    have hsub := issued_step (cfg := cfg) kw ev
    have quiet : ∀ kw' : KWorld, kw.w.issued ⊆ kw'.w.issued → kw'.keys = kw.keys →
        (∀ x ∈ kw'.queue, x ∈ kw.queue) →
        (∀ x ∈ kw'.queue, ∃ id, (id, x.2) ∈ kw'.w.issued ∧ x.2.receiver = cfg.self) ∧
        ∀ k p, kw'.keys.get k = some p → Source cfg kw0 (l ++ [ev]) kw'.w.issued k p := by
      intro kw' g1 g2 g3
      refine ⟨fun x hx => ?_, fun k p hp => ?_⟩
      · obtain ⟨id, a, b⟩ := h1 x (g3 x hx); exact ⟨id, g1 a, b⟩
      · rw [g2] at hp; exact (h2 k p hp).mono g1 [ev]
    cases ev with
    | sign pk acts hosts =>
      simp only [kstep]
      cases hk : kw.keys.get pk with
      | none => exact quiet kw (fun _ h => h) rfl (fun _ h => h)
      | some p0 =>
        simp only
        by_cases hp : permAllows cfg.self p0 acts = true
        · rw [if_pos hp]
          cases hb : runBatch cfg pk kw hosts acts with
          | none => exact quiet kw (fun _ h => h) rfl (fun _ h => h)
          | some kw' =>
            obtain ⟨g1, g2, g3⟩ := runBatch_keys cfg pk acts kw kw' hosts hb
            refine ⟨fun x hx => ?_, fun k p hkp => ?_⟩
            · rcases g2 x hx with hx | hx
              · obtain ⟨id, a, b⟩ := h1 x hx; exact ⟨id, g1 a, b⟩
              · exact hx
            · rcases g3 k p hkp with hkp | ⟨a, ha, hg⟩
              · exact (h2 k p hkp).mono g1 _
              · refine .signed l pk acts hosts [] a rfl ?_ ha hg
                rw [hkw, hk, allows_full hp ha (by rw [hg]; simp)]
        · rw [if_neg hp]; exact quiet kw (fun _ h => h) rfl (fun _ h => h)
    | deliver i hosts =>
      simp only [kstep]
      cases hq : kw.queue[i]? with
      | none => exact quiet kw (fun _ h => h) rfl (fun _ h => h)
      | some x0 =>
        obtain ⟨pk, b⟩ := x0
        simp only
        cases hb : runBatch cfg pk { kw with queue := kw.queue.eraseIdx i } hosts b.actions with
        | none => exact quiet _ (fun _ h => h) rfl (fun _ h => List.mem_of_mem_eraseIdx h)
        | some kw' =>
          obtain ⟨g1, g2, g3⟩ := runBatch_keys cfg pk b.actions _ kw' hosts hb
          obtain ⟨id0, ho1, ho2⟩ := h1 _ (List.mem_of_getElem? hq)
          refine ⟨fun x hx => ?_, fun k p hkp => ?_⟩
          · rcases g2 x hx with hx | hx
            · obtain ⟨id, a, b⟩ := h1 x (List.mem_of_mem_eraseIdx hx); exact ⟨id, g1 a, b⟩
            · exact hx
          · rcases g3 k p hkp with hkp | ⟨a, ha, hg⟩
            · exact (h2 k p hkp).mono g1 _
            · exact .request id0 b a (g1 ho1) ho2 ha hg
    | foreign who pk att host c =>
      simp only [kstep]
      split
      · exact quiet kw (fun _ h => h) rfl (fun _ h => h)
      · exact quiet _ issued_subset rfl (fun _ h => h)
    | tick dt => exact quiet _ issued_subset rfl (fun _ h => h)

end Verif.Multisig
