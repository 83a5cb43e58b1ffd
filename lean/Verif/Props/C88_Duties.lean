import Verif.Lemmas.DutyRun
import Verif.Props.C84_Always
import Verif.Props.C42_SyncStatus
import Verif.Props.C34_C62_Actor
/-!
# C88: a validating node does its duties
-/
namespace Verif.Node
open Verif Verif.Db Verif.Sync Verif.Buffers Verif.Build

section
variable {c : VCtx} {t : Nat} {vals : List Validator} {bs : List Block} {a0 : State}
  {body : Option (List AggAtt)} {K : Header → Prop} {root : Root} {anchor : State}

/-- The invariant of a store, whatever happened to it. -/
def Fit (c : VCtx) (t : Nat) (vals : List Validator) (a0 : State) (body : Option (List AggAtt))
    (K : Header → Prop) (root : Root) (anchor : State) (s : Store) : Prop :=
  ∃ ops, NInv c.ctx.E t vals a0 body K root anchor NoX ops s ∧ Settled s

theorem Fit.step (W : World c.ctx.E t vals bs a0 K)
    (A : AnchorOk c.ctx.E.H (State.fromGenesis c.ctx.E.H t vals) K root anchor) {s : Store}
    (F : Fit c t vals a0 body K root anchor s) (ev : Event) (hk : EventK c.ctx.E.H K ev) :
    ∃ s', Node.step c.ctx.E s ev = .ok s' ∧ Fit c t vals a0 body K root anchor s' := by
  obtain ⟨ops, I, S⟩ := F
  obtain ⟨s', ops', e, I', x⟩ := I.step W A ev hk
  exact ⟨s', e, ops', I', x.settled S⟩

theorem Fit.headState (W : World c.ctx.E t vals bs a0 K) {s : Store}
    (F : Fit c t vals a0 body K root anchor s) :
    ∃ st s', headState s = .ok (st, s') ∧ st.validators = vals ∧ s'.mem.db = s.mem.db ∧
      s'.genesisTime = s.genesisTime ∧ Fit c t vals a0 body K root anchor s' := by
  obtain ⟨ops, I, S⟩ := F
  obtain ⟨st, h1⟩ := I.cp.head
  obtain ⟨s1, g1, g2, -, I1⟩ := I.getState W s.mem.db.head
  refine ⟨st, s1, ?_, state_vals W I h1, g2, (getState_frame g1).2.2.2.2.2, _, I1, ?_⟩
  · unfold Node.headState
    rw [g1, h1]
  · unfold Settled at *; rw [g2]; exact S

theorem Fit.ourProposer (W : World c.ctx.E t vals bs a0 K) {s : Store} (slot : Nat)
    (F : Fit c t vals a0 body K root anchor s) :
    ∃ s', ourProposer c.ids s slot =
        .ok (c.ids.find? (fun v => isProposer v slot vals.length), s') ∧
      s'.mem.db = s.mem.db ∧ s'.genesisTime = s.genesisTime ∧
      Fit c t vals a0 body K root anchor s' := by
  obtain ⟨st, s', h1, h2, h3, h4, h5⟩ := F.headState W
  refine ⟨s', ?_, h3, h4, h5⟩
  unfold Node.ourProposer
  rw [h1]
  simp only [h2]

theorem Fit.updateSync {s : Store} (F : Fit c t vals a0 body K root anchor s) (tr : Tracker)
    (slot : Nat) : ∃ tr', updateSync tr s slot = .ok tr' := by
  obtain ⟨ops, I, S⟩ := F
  obtain ⟨st, h1⟩ := I.cp.head
  unfold Node.updateSync headSlot Store.header
  rw [(I.tree.own _ _ h1).2]
  exact ⟨_, rfl⟩

theorem Fit.onTick (W : World c.ctx.E t vals bs a0 K)
    (A : AnchorOk c.ctx.E.H (State.fromGenesis c.ctx.E.H t vals) K root anchor) {s : Store}
    (F : Fit c t vals a0 body K root anchor s) (now : Nat) (p : Bool) :
    ∃ s', onTick c.H s now p = .ok s' ∧ Fit c t vals a0 body K root anchor s' :=
  F.step W A (.tick now p) trivial

theorem Fit.signVotes (W : World c.ctx.E t vals bs a0 K)
    (A : AnchorOk c.ctx.E.H (State.fromGenesis c.ctx.E.H t vals) K root anchor) (d : AttData)
    (agg : Bool) : ∀ (vs : List Nat) {s : Store}, Fit c t vals a0 body K root anchor s →
    ∃ s' l, signVotes c d agg vs s = .ok (s', l) ∧ Fit c t vals a0 body K root anchor s' ∧
      s'.mem.db = s.mem.db
  | [], s, F => ⟨s, [], rfl, F, rfl⟩
  | v :: vs, s, F => by
    unfold Node.signVotes
    cases hs : c.sign v d with
    | none =>
      obtain ⟨s', l, h1, h2, h3⟩ := Fit.signVotes W A d agg vs F
      simp only
      rw [h1]
      exact ⟨s', _, rfl, h2, h3⟩
    | some sig =>
      simp only
      obtain ⟨s1, e1, F1, e2⟩ : ∃ s1, (if agg then R.store (onGossipAttestation c.ctx.E s v d sig true)
          else .ok s : P Store) = .ok s1 ∧ Fit c t vals a0 body K root anchor s1 ∧
          s1.mem.db = s.mem.db := by
        split
        · obtain ⟨s1, e1, F1⟩ := F.step W A (.attestation v d sig true) trivial
          refine ⟨s1, e1, F1, ?_⟩
          have e1 : R.store (onGossipAttestation c.ctx.E s v d sig true) = .ok s1 := e1
          exact attestation_still e1
        · exact ⟨s, rfl, F, rfl⟩
      obtain ⟨s', l, h1, h2, h3⟩ := Fit.signVotes W A d agg vs F1
      rw [e1]
      simp only
      rw [h1]
      exact ⟨s', _, rfl, h2, h3.trans e2⟩


/-- Duties are withheld: the node is configured to do so, its head is more than two slots behind the
clock, and it knows a block of the last eight slots. -/
def Withheld (n : VNode) (slot : Nat) : Prop :=
  n.sync.gateDuties = true ∧
  (∃ h, n.actor.store.mem.db.headers.get? n.actor.store.mem.db.head = some h ∧ h.slot + 2 < slot) ∧
  ∃ e ∈ n.actor.store.mem.db.liveChain, slot ≤ e.1.1 + 8

theorem updateSync_withheld {n : VNode} {s : Store} {slot : Nat} {tr : Tracker}
    (hs : s.mem.db = n.actor.store.mem.db) (h : updateSync n.sync s slot = .ok tr)
    (hl : s.mem.db.liveChain ≠ []) (hd : tr.dutiesAllowed = false) : Withheld n slot := by
  unfold Node.updateSync headSlot Store.header at h
  cases hh : s.mem.db.headers.get? s.mem.db.head with
  | none => rw [hh] at h; cases h
  | some hdr =>
  rw [hh] at h
  cases h
  generalize hm : (((s.mem.db.liveChain.map (fun e => e.1.1)).max?).getD hdr.slot) = m at hd
  unfold Tracker.dutiesAllowed at hd
  have g := see_gate n.sync ⟨slot, hdr.slot, m⟩
  unfold Tracker.see at g
  simp only at g
  rw [g] at hd
  simp only [Bool.or_eq_false_iff, Bool.not_eq_false'] at hd
  obtain ⟨d1, d2⟩ := hd
  obtain ⟨q1, q2⟩ := (see_iff n.sync ⟨slot, hdr.slot, m⟩).1 d2
  unfold Obs.Stalled at q1
  unfold Obs.Behind at q2
  simp only at q1 q2
  refine ⟨d1, ⟨hdr, by rw [← hs]; exact hh, by omega⟩, ?_⟩
  cases hx : (s.mem.db.liveChain.map (fun e => e.1.1)).max? with
  | none =>
    rw [List.max?_eq_none_iff, List.map_eq_nil_iff] at hx
    exact absurd hx hl
  | some k =>
    rw [hx] at hm
    have hm : k = m := hm
    obtain ⟨e, he, hk⟩ := List.mem_map.1 (List.max?_mem hx)
    exact ⟨e, by rw [← hs]; exact he, by omega⟩

/-- The part of a tick before the duties. -/
theorem tick_mid (W : World c.ctx.E t vals bs a0 K)
    (A : AnchorOk c.ctx.E.H (State.fromGenesis c.ctx.E.H t vals) K root anchor) {n : VNode}
    (F : Fit c t vals a0 body K root anchor n.actor.store) (hv : 0 < vals.length) (now : Nat)
    (agg : Bool) {i : Interval}
    (hi : Interval.ofMs (now - n.actor.store.genesisTime * 1000) = some i)
    (hg : ¬ (n.actor.store.mem.db.time > 0 ∧
      (now - n.actor.store.genesisTime * 1000) / 800 ≤ n.actor.store.mem.db.time)) :
    ∃ sync s3 evs0, SRun c.ctx.E Event.Quiet n.actor.store evs0 s3 ∧
      Fit c t vals a0 body K root anchor s3 ∧
      s3.mem.db.time = max n.actor.store.mem.db.time
        ((now - n.actor.store.genesisTime * 1000) / 800) ∧
      s3.genesisTime = n.actor.store.genesisTime ∧
      (sync.dutiesAllowed = false →
        Withheld n ((now - n.actor.store.genesisTime * 1000) / 4000)) ∧
      n.tick c now agg = (match actorDuty c sync
          ((now - n.actor.store.genesisTime * 1000) / 4000) agg i s3 with
        | .error e => .error e
        | .ok (s, l) => .ok ({ actor := { n.actor with store := s }, sync := sync }, l)) := by
  obtain ⟨st, s1, h1, h2, h3, h4, F1⟩ := F.headState W
  obtain ⟨sync, h5⟩ := F1.updateSync n.sync ((now - n.actor.store.genesisTime * 1000) / 4000)
  obtain ⟨p, s2, evs2, h6, r6, h7, h8, F2⟩ : ∃ p s2 evs2, (if i = .publication ∧
      (now - n.actor.store.genesisTime * 1000) / 4000 > 0
      then ourProposer c.ids s1 ((now - n.actor.store.genesisTime * 1000) / 4000)
      else .ok (none, s1) : P (Option Nat × Store)) = .ok (p, s2) ∧
      SRun c.ctx.E Event.Quiet s1 evs2 s2 ∧
      s2.mem.db = s1.mem.db ∧ s2.genesisTime = s1.genesisTime ∧
      Fit c t vals a0 body K root anchor s2 := by
    split
    · obtain ⟨s2, q1, q2, q3, q4⟩ := F1.ourProposer W _
      exact ⟨_, s2, _, q1, .ourProposer q1, q2, q3, q4⟩
    · exact ⟨_, s1, _, rfl, .nil, rfl, rfl, F1⟩
  obtain ⟨s3, h9, F3⟩ := F2.onTick W A now p.isSome
  have hc := C32_clock h9
  refine ⟨sync, s3, _, ((SRun.headState h1).trans r6).trans (.onTick h9), F3, ?_, ?_, ?_, ?_⟩
  · rw [hc.1, h7, h3, h8, h4]
  · rw [hc.2, h8, h4]
  · refine updateSync_withheld h3 h5 ?_
    obtain ⟨ops, I, -⟩ := F1
    obtain ⟨st, j1, j2⟩ := I.cp.just
    intro hl
    have := I.cp.liveFull _ _ j1 (Nat.le_of_eq j2.symm)
    rw [hl] at this
    cases this
  · unfold VNode.tick
    simp only
    have e5 : (now - n.actor.store.genesisTime * 1000) / msPerInterval =
      (now - n.actor.store.genesisTime * 1000) / 800 := rfl
    rw [e5, if_neg hg, hi]
    simp only
    rw [h1]
    simp only
    rw [if_neg (by rw [h2]; simpa using List.ne_nil_of_length_pos hv)]
    have e4 : (now - n.actor.store.genesisTime * 1000) / msPerSlot =
      (now - n.actor.store.genesisTime * 1000) / 4000 := rfl
    rw [e4, h5]
    simp only
    rw [h6]
    simp only
    rw [h9]
    rfl

theorem areach_fit (ho : ∀ l, (c.order l).Perm l) {evs : List Event} {a : Actor}
    (W : World c.ctx.E t vals bs a0
      (Known c.ctx.E.H (State.fromGenesis c.ctx.E.H t vals) bs evs))
    (h : AReach c.ctx a0 body evs a) :
    ∃ root anchor, AnchorOk c.ctx.E.H (State.fromGenesis c.ctx.E.H t vals)
        (Known c.ctx.E.H (State.fromGenesis c.ctx.E.H t vals) bs evs) root anchor ∧
      Fit c t vals a0 body (Known c.ctx.E.H (State.fromGenesis c.ctx.E.H t vals) bs evs) root anchor
        a.store := by
  obtain ⟨rank, hR⟩ := W.acyclic
  obtain ⟨root, anchor, ops, A, I⟩ := areach_ainv (c := c.ctx) ho W hR h eventK_known
  exact ⟨root, anchor, A, ops, I.node, I.settled⟩

theorem ofMs_interval {ms k j : Nat} {i : Interval} (h : ms / 800 = 5 * k + j)
    (hi : Interval.ofCount j = some i) : Interval.ofMs ms = some i := by
  have e5 : ms / msPerInterval = ms / 800 := rfl
  unfold Interval.ofMs
  rw [e5, h]
  unfold Interval.ofCount at hi ⊢
  have : (5 * k + j) % intervalsPerSlot = j % intervalsPerSlot := by
    show (5 * k + j) % 5 = j % 5
    omega
  rw [this]
  exact hi

theorem isProposer_eq {v slot k : Nat} (h : isProposer v slot k = true) : v = slot % k := by
  unfold isProposer at h
  have h := of_decide_eq_true h
  unfold currentProposer at h
  split at h
  · exact (Option.some.inj h).symm
  · cases h

theorem isProposer_self {slot k : Nat} (hk : 0 < k) : isProposer (slot % k) slot k = true := by
  unfold isProposer
  refine decide_eq_true ?_
  unfold currentProposer
  rw [if_pos hk]

theorem known_quiet {H : Hash} {g : State} {evs0 evs : List Event} (h : ∀ ev ∈ evs0, ev.Quiet)
    {pre : List Event} {x : Header} :
    Known H g bs (pre ++ (evs0 ++ evs)) x → Known H g bs (pre ++ evs) x := by
  rintro (hx | hx | ⟨sb, hs, hx⟩)
  · exact .inl hx
  · exact .inr (.inl hx)
  · refine .inr (.inr ⟨sb, ?_, hx⟩)
    rcases hs with hs | hs
    · rcases List.mem_append.1 hs with hs | hs
      · exact .inl (List.mem_append_left _ hs)
      · rcases List.mem_append.1 hs with hs | hs
        · exact (h _ hs).elim
        · exact .inl (List.mem_append_right _ hs)
    · rcases List.mem_append.1 hs with hs | hs
      · exact .inr (List.mem_append_left _ hs)
      · rcases List.mem_append.1 hs with hs | hs
        · exact (h _ hs).elim
        · exact .inr (List.mem_append_right _ hs)

theorem tick_votes (ho : ∀ l, (c.order l).Perm l) {evs : List Event} {n : VNode}
    (W : World c.ctx.E t vals bs a0
      (Known c.ctx.E.H (State.fromGenesis c.ctx.E.H t vals) bs evs))
    (h : AReach c.ctx a0 body evs n.actor) (hv : 0 < vals.length) {now slot : Nat} (agg : Bool)
    (hnow : (now - n.actor.store.genesisTime * 1000) / 800 = 5 * slot + 1)
    (hnew : n.actor.store.mem.db.time < 5 * slot + 1) :
    ∃ n' l, n.tick c now agg = .ok (n', l) ∧
      ((l = [] ∧ Withheld n slot) ∨
       ∃ d, l = c.ids.map (fun v => .vote v d (c.sign v d)) ∧ d.slot = slot ∧
        d.head.root = n'.actor.store.mem.db.head ∧
        KnownAt n'.actor.store.mem.db.headers d.head ∧
        ∃ sh, n'.actor.store.mem.db.headers.get? n'.actor.store.mem.db.safeTarget = some sh ∧
          TargetRule n'.actor.store.mem.db.headers n'.actor.store.mem.db.head sh.slot
            n'.actor.store.mem.db.justified n'.actor.store.mem.db.finalized d.target ∧
        ∃ s3 s4 evs0, SRun c.ctx.E Event.Quiet n.actor.store evs0 s3 ∧
          s3.mem.db.time = 5 * slot + 1 ∧ produceAttestationData s3 slot = .ok (d, s4) ∧
          n'.actor.store.mem.db = s4.mem.db) := by
  obtain ⟨root, anchor, A, F⟩ := areach_fit ho W h
  have hs : (now - n.actor.store.genesisTime * 1000) / 4000 = slot := by omega
  obtain ⟨sync, s3, evs0, R3, F3, T3, -, hw, ht⟩ := tick_mid W A F hv now agg
    (i := .attestation) (ofMs_interval hnow rfl) (by omega)
  rw [hs] at hw ht
  unfold actorDuty at ht
  simp only at ht
  cases hd : sync.dutiesAllowed with
  | false =>
    rw [hd] at ht
    exact ⟨_, _, ht, .inl ⟨rfl, hw hd⟩⟩
  | true =>
    rw [hd, if_pos rfl] at ht
    obtain ⟨ops, I, S⟩ := F3
    obtain ⟨sh, c1, sc, s4, h1, h2, h3, h4, -⟩ := I.produce W S slot
    obtain ⟨s4', F4⟩ : ∃ s4', produceAttestationData s3 slot = .ok (_, s4') ∧
        Fit c t vals a0 body _ root anchor s4' := by
      obtain ⟨s', g1, g2, -, I1⟩ := I.getState W s3.mem.db.head
      refine ⟨s4, h2, ?_⟩
      have := produceData_run (E := c.ctx.E) h2
      obtain ⟨s5, g5, F5⟩ := Fit.step W A ⟨ops, I, S⟩ (.read s3.mem.db.head) trivial
      cases this with
      | step r _ e =>
        cases r
        rw [g5] at e
        cases e
        exact F5
    obtain ⟨e4, F4⟩ := F4
    rw [h2] at e4
    cases e4
    obtain ⟨s5, l, e5, F5, e6⟩ := Fit.signVotes W A
      ({ slot := slot, head := ⟨s3.mem.db.head, sh.slot⟩, target := c1,
         source := if sh.latestJustified.root = 0
          then { sh.latestJustified with root := s3.mem.db.head } else sh.latestJustified }) agg
      c.ids F4
    obtain ⟨hl, -⟩ := signVotes_out _ e5
    unfold produceVotes at ht
    rw [h2] at ht
    simp only at ht
    rw [e5] at ht
    refine ⟨_, _, ht, .inr ⟨_, hl, rfl, ?_⟩⟩
    have hr := attestationTarget_rule h4
    rw [h3] at hr
    simp only [e6, h3]
    obtain ⟨sf, q1, q2⟩ := hr
    exact ⟨trivial, ⟨_, (I.tree.own _ _ h1).2, I.tree.slotEq _ _ h1⟩, sf, q1, q2, s3, s4, evs0, R3,
      by rw [T3]; omega, h2, h3.symm⟩

/-- **C88.** When the timer fires in the second interval of a slot the node has not ticked through
yet, then, in whatever state the node got into: the tick succeeds, and every one of the node's
validators is asked to sign exactly one vote, all of them the same one: for this slot, with the node's
head as head and with the target of the rule; unless the node is configured to withhold votes while
its head is more than two slots behind. -/
theorem C88_votes (ho : ∀ l, (c.order l).Perm l) {evs : List Event} {n : VNode}
    (W : World c.ctx.E t vals bs a0
      (Known c.ctx.E.H (State.fromGenesis c.ctx.E.H t vals) bs evs))
    (h : AReach c.ctx a0 body evs n.actor) (hv : 0 < vals.length) {now slot : Nat} (agg : Bool)
    (hnow : (now - n.actor.store.genesisTime * 1000) / 800 = 5 * slot + 1)
    (hnew : n.actor.store.mem.db.time < 5 * slot + 1) :
    ∃ n' l, n.tick c now agg = .ok (n', l) ∧
      ((l = [] ∧ Withheld n slot) ∨
       ∃ d, l = c.ids.map (fun v => .vote v d (c.sign v d)) ∧ d.slot = slot ∧
        d.head.root = n'.actor.store.mem.db.head ∧
        KnownAt n'.actor.store.mem.db.headers d.head ∧
        ∃ sh, n'.actor.store.mem.db.headers.get? n'.actor.store.mem.db.safeTarget = some sh ∧
          TargetRule n'.actor.store.mem.db.headers n'.actor.store.mem.db.head sh.slot
            n'.actor.store.mem.db.justified n'.actor.store.mem.db.finalized d.target) := by
  obtain ⟨n', l, e, h1 | ⟨d, h1, h2, h3, h4, sh, h5, h6, -⟩⟩ := tick_votes ho W h hv agg hnow hnew
  · exact ⟨n', l, e, .inl h1⟩
  · exact ⟨n', l, e, .inr ⟨d, h1, h2, h3, h4, sh, h5, h6⟩⟩

theorem validateData_db {s s' : Store} (h : s.mem.db = s'.mem.db) (d : AttData) :
    validateData s d = validateData s' d := by
  unfold validateData Store.header
  rw [h]

/-- **C88.** Nodes started from genesis: unless the head is a block of a later slot, the votes pass the
node's own validation right after the tick. -/
theorem C88_votes_accepted (ho : ∀ l, (c.order l).Perm l) {evs : List Event} {n n' : VNode}
    {l : List Signed}
    (W : World c.ctx.E t vals [] (State.fromGenesis c.ctx.E.H t vals)
      (Known c.ctx.E.H (State.fromGenesis c.ctx.E.H t vals) [] evs))
    (h : AReach c.ctx (State.fromGenesis c.ctx.E.H t vals) body evs n.actor) (hv : 0 < vals.length)
    {now slot : Nat} (agg : Bool)
    (hnow : (now - n.actor.store.genesisTime * 1000) / 800 = 5 * slot + 1)
    (hnew : n.actor.store.mem.db.time < 5 * slot + 1) (ht : n.tick c now agg = .ok (n', l))
    {v : Nat} {d : AttData} {sig : Option Nat} (hm : .vote v d sig ∈ l) (hd : d.head.slot ≤ slot) :
    validateData n'.actor.store d = .ok (.ok ()) := by
  obtain ⟨n2, l2, e, ⟨h1, -⟩ | ⟨d2, h1, -, -, -, sh, -, -, s3, s4, evs0, R, T, hp, hdb⟩⟩ :=
    tick_votes ho W h hv agg hnow hnew
  · rw [e] at ht
    cases ht
    rw [h1] at hm
    cases hm
  · rw [e] at ht
    cases ht
    rw [h1] at hm
    obtain ⟨v', -, hv'⟩ := List.mem_map.1 hm
    cases hv'
    have Q := R.all
    have A := R.areach (fun ev he => (he.caused (l := []) (agg := false)).notBlock) h
    have := C62_actor (c := c.ctx) (a := { n.actor with store := s3 }) ho
      (W.weaken (fun x => known_quiet (pre := []) Q) (.inl rfl) (fun b hb => by cases hb)) A hp hd
      (by rw [T]; omega)
    rw [validateData_db hdb]
    exact this

/-- **C88.** Ticks the node has been through before, ticks in the other intervals, and ticks in the
last interval of a slot when the next proposer is not one of the node's validators: nothing is signed
and nothing fails. -/
theorem C88_idle (ho : ∀ l, (c.order l).Perm l) {evs : List Event} {n : VNode}
    (W : World c.ctx.E t vals bs a0
      (Known c.ctx.E.H (State.fromGenesis c.ctx.E.H t vals) bs evs))
    (h : AReach c.ctx a0 body evs n.actor) (hv : 0 < vals.length) {now slot j : Nat} (agg : Bool)
    (hnow : (now - n.actor.store.genesisTime * 1000) / 800 = 5 * slot + j) (hj : j < 5)
    (hi : (0 < n.actor.store.mem.db.time ∧ 5 * slot + j ≤ n.actor.store.mem.db.time) ∨
      j = 0 ∨ j = 2 ∨ j = 3 ∨ (j = 4 ∧ (slot + 1) % vals.length ∉ c.ids)) :
    ∃ n', n.tick c now agg = .ok (n', []) := by
  obtain ⟨root, anchor, A, F⟩ := areach_fit ho W h
  have hs : (now - n.actor.store.genesisTime * 1000) / 4000 = slot := by omega
  by_cases hg : n.actor.store.mem.db.time > 0 ∧
      (now - n.actor.store.genesisTime * 1000) / 800 ≤ n.actor.store.mem.db.time
  · refine ⟨n, ?_⟩
    unfold VNode.tick
    simp only
    exact if_pos hg
  · have hi := hi.resolve_left (by omega)
    obtain ⟨i, hi'⟩ : ∃ i, Interval.ofCount j = some i := by
      unfold Interval.ofCount
      have : j % intervalsPerSlot = j := Nat.mod_eq_of_lt hj
      rw [this]
      rcases j with _ | _ | _ | _ | _ | j
      · exact ⟨_, rfl⟩
      · exact ⟨_, rfl⟩
      · exact ⟨_, rfl⟩
      · exact ⟨_, rfl⟩
      · exact ⟨_, rfl⟩
      · omega
    obtain ⟨sync, s3, evs0, -, F3, -, -, hw, ht⟩ := tick_mid W A F hv now agg
      (ofMs_interval hnow hi') hg
    rw [hs] at ht
    rcases hi with rfl | rfl | rfl | ⟨rfl, hp⟩
    · cases hi'; exact ⟨_, ht⟩
    · cases hi'; exact ⟨_, ht⟩
    · cases hi'; exact ⟨_, ht⟩
    · cases hi'
      obtain ⟨s4, q, -⟩ := F3.ourProposer W (slot + 1)
      unfold actorDuty at ht
      simp only at ht
      rw [q] at ht
      rw [show c.ids.find? (fun v => isProposer v (slot + 1) vals.length) = none by
        rw [List.find?_eq_none]
        intro v hm hx
        exact hp (isProposer_eq hx ▸ hm)] at ht
      exact ⟨_, ht⟩

theorem arrived_quiet {evs0 evs : List Event} (h : ∀ ev ∈ evs0, ev.Quiet) {sb : SignedBlock} :
    Arrived (evs0 ++ evs) sb → Arrived evs sb := by
  rintro (hs | hs)
  · rcases List.mem_append.1 hs with hs | hs
    · exact (h _ hs).elim
    · exact .inl hs
  · rcases List.mem_append.1 hs with hs | hs
    · exact (h _ hs).elim
    · exact .inr hs

theorem occurs_quiet {evs0 evs : List Event} (h : ∀ ev ∈ evs0, ev.Quiet) {d : AttData} :
    Occurs (evs0 ++ evs) d → Occurs evs d := by
  rintro (⟨sb, hs, hd⟩ | ⟨v, sig, agg, hs⟩ | ⟨g, hs⟩)
  · exact .inl ⟨sb, arrived_quiet h hs, hd⟩
  · rcases List.mem_append.1 hs with hs | hs
    · exact (h _ hs).elim
    · exact .inr (.inl ⟨v, sig, agg, hs⟩)
  · rcases List.mem_append.1 hs with hs | hs
    · exact (h _ hs).elim
    · exact .inr (.inr ⟨g, hs⟩)

theorem noCollision_quiet {H : Hash} {evs0 evs : List Event} (h : ∀ ev ∈ evs0, ev.Quiet)
    (hN : NoCollision H evs) : NoCollision H (evs0 ++ evs) where
  votes d d' a b := hN.votes d d' (occurs_quiet h a) (occurs_quiet h b)
  bodies l l' a b := hN.bodies l l'
    (a.imp id fun ⟨sb, hs, hb⟩ => ⟨sb, arrived_quiet h hs, hb⟩)
    (b.imp id fun ⟨sb, hs, hb⟩ => ⟨sb, arrived_quiet h hs, hb⟩)

theorem ownMade_quiet {X : Crypto} {k : Ctx} {prove : List Validator → Job → Option Nat} :
    ∀ {evs0 evs : List Event}, (∀ ev ∈ evs0, ev.Quiet) → OwnMade X k prove a0 body evs →
    OwnMade X k prove a0 body (evs0 ++ evs)
  | [], _, _, ho => ho
  | ev :: evs0, evs, h, ho => by
    intro d g keys evs1 hs
    rcases List.suffix_cons_iff.1 hs with hs | hs
    · cases hs
      exact (h _ List.mem_cons_self).elim
    · exact ownMade_quiet (evs0 := evs0) (fun ev he => h ev (List.mem_cons_of_mem _ he)) ho d g keys
        evs1 hs

theorem assembleProof_block {X : Crypto} {H : Hash} {st : State}
    {sign : Nat → Nat → Root → Option Nat} {slot vid : Nat} {b : Block} {aggs : List Agg}
    {sb : SignedBlock} (h : assembleProof X H st sign slot vid b aggs = some sb) : sb.block = b := by
  unfold assembleProof at h
  simp only at h
  repeat' (split at h; · cases h)
  cases h
  rfl

theorem propose_eq {s s' : Store} {slot vid : Nat} {sb : SignedBlock} {r : Except Err Unit}
    (h : proposeBlock c.X c.H c.ord c.signBlock s slot vid c.config = .ok (s', some (sb, r))) :
    propose c s slot vid = .ok (s', [.block vid slot (sb.block.root c.H) (some (sb, r))]) := by
  unfold proposeBlock at h
  unfold propose
  split at h
  · cases h
  next s0 e0 =>
  rw [e0]
  simp only
  split at h
  · cases h
  · cases h
  next s1 b proofs e1 =>
  rw [e1]
  simp only
  split at h
  · cases h
  next st s2 e2 =>
  rw [e2]
  simp only
  split at h
  · cases h
  next sb' e3 =>
  rw [e3]
  simp only
  split at h
  · cases h
  next s3 r' e4 =>
  cases h
  have e4 : onBlock c.ctx.E s2 sb = .ok (s', r) := e4
  rw [e4]
  simp only
  rw [assembleProof_block e3]

/-- **C88, for nodes that see only one copy of each block.** When the timer fires in the last interval
before a slot the node has not ticked through yet and whose proposer is one of its validators, then,
in whatever state the node got into, the node first catches up to the slot (promoting the votes it
has), and if its head is then before the slot, it builds a block for the slot on that head, signs and
imports it, and publishes it; unless it is configured to withhold blocks while its head is more than
two slots behind, and unless the hash of the new block clashes with that of an earlier one.
Missing: `OneCopy`, as for C83 and C84. -/
theorem C88_proposal_partial (hX : Complete c.X) (hL : Live c.X) (hK : KeysDistinct c.X vals)
    (ho : ∀ l, (c.order l).Perm l) {evs : List Event} {n : VNode}
    (W : World c.ctx.E t vals bs a0
      (Known c.ctx.E.H (State.fromGenesis c.ctx.E.H t vals) bs evs))
    (hN : NoCollision c.H evs) (h1 : OneCopy evs)
    (hre : ∀ s sb, c.reagg s sb = reaggregate c.X c.H s sb ∨ c.reagg s sb = [])
    (hown : OwnMade c.X c.ctx (proveJob c.X) a0 body evs)
    (h : AReach c.ctx a0 body evs n.actor) (hord : ∀ r l, (c.ord r l).Perm l)
    (hvl : vals.length ≤ validatorRegistryLimit) (hv : 0 < vals.length) {now slot : Nat} (agg : Bool)
    (hnow : (now - n.actor.store.genesisTime * 1000) / 800 + 1 = 5 * slot)
    (hnew : n.actor.store.mem.db.time + 1 < 5 * slot) (hslot : slot ≤ historicalRootsLimit)
    (hours : slot % vals.length ∈ c.ids)
    (hsign : SignsWith c.X vals (slot % vals.length) c.signBlock)
    (hcan : CanSign c.X vals (slot % vals.length) c.signBlock) :
    (∃ n', n.tick c now agg = .ok (n', []) ∧ Withheld n (slot - 1)) ∨
    ∃ evs0 s0 st, (∀ ev ∈ evs0, ev.Quiet) ∧
      AReach c.ctx a0 body (evs0 ++ evs) { n.actor with store := s0 } ∧
      s0.mem.db.time = 5 * slot ∧ Reads s0 s0.mem.db.head st ∧
      (st.slot < slot → ∃ sb, sb.block.slot = slot ∧
        sb.block.proposerIndex = slot % vals.length ∧ sb.block.parentRoot = s0.mem.db.head ∧
        (World c.ctx.E t vals bs a0
            (Known c.ctx.E.H (State.fromGenesis c.ctx.E.H t vals) bs (.own sb :: evs)) →
          ∃ n', n.tick c now agg = .ok (n',
            [.block (slot % vals.length) slot (sb.block.root c.H) (some (sb, .ok ()))]))) := by
  obtain ⟨root, anchor, A, F⟩ := areach_fit ho W h
  have hs : (now - n.actor.store.genesisTime * 1000) / 4000 = slot - 1 := by omega
  obtain ⟨sync, s3, evs3, R3, F3, T3, G3, hw, ht⟩ := tick_mid W A F hv now agg
    (i := .endOfSlot) (ofMs_interval (k := slot - 1) (j := 4) (by omega) rfl) (by omega)
  rw [hs] at hw ht
  have hs1 : slot - 1 + 1 = slot := by omega
  obtain ⟨s4, q, q2, q3, F4⟩ := F3.ourProposer W slot
  have hf : c.ids.find? (fun v => isProposer v slot vals.length) = some (slot % vals.length) := by
    cases hx : c.ids.find? (fun v => isProposer v slot vals.length) with
    | none =>
      rw [List.find?_eq_none] at hx
      exact absurd (isProposer_self hv) (hx _ hours)
    | some v =>
      have := List.find?_some hx
      rw [isProposer_eq this]
  rw [hf] at q
  unfold actorDuty at ht
  simp only at ht
  rw [hs1, q] at ht
  simp only at ht
  cases hd : sync.dutiesAllowed with
  | false =>
    rw [hd] at ht
    exact .inl ⟨_, ht, hw hd⟩
  | true =>
  rw [hd, if_pos rfl] at ht
  right
  have R4 : SRun c.ctx.E Event.Quiet n.actor.store _ s4 := R3.trans (.ourProposer q)
  have Q4 := R4.all
  generalize [Event.read s3.mem.db.head] ++ evs3 = evs4 at R4 Q4
  have h4 := R4.areach (fun ev he => (he.caused (l := []) (agg := false)).notBlock) h
  have W4 : World c.ctx.E t vals bs a0
      (Known c.ctx.E.H (State.fromGenesis c.ctx.E.H t vals) bs (evs4 ++ evs)) :=
    W.weaken (fun x => known_quiet (pre := []) Q4) (.inl rfl) (fun b hb => .inr (.inl ⟨b, hb, rfl⟩))
  obtain ⟨s0, st, p1, p2, p3⟩ := C84_always_partial (a := { n.actor with store := s4 }) hX hL hK ho W4
    (noCollision_quiet Q4 hN) (fun a b ha hb => h1 a b (arrived_quiet Q4 ha) (arrived_quiet Q4 hb))
    hre (ownMade_quiet Q4 hown) h4 hord c.config hvl hv (slot := slot) rfl hsign hcan hslot
  have R0 := R4.trans (proposalStore_run (c := c) p1)
  refine ⟨_, s0, st, R0.all,
    R0.areach (fun ev he => (he.caused (l := []) (agg := false)).notBlock) h, ?_, p2, fun hlt => ?_⟩
  · have p1 := p1
    unfold proposalStore at p1
    split at p1
    · cases p1
    next s5 e5 =>
      rw [(acceptNew_time p1).1, (C32_clock e5).1]
      simp only
      rw [q2, T3]
      have : msPerSlot = 4000 := rfl
      rw [this]
      omega
  · obtain ⟨s1, b, proofs, sb, -, -, b1, b2, b3, b4⟩ := p3 hlt
    refine ⟨sb, b1, b2, b3, fun W' => ?_⟩
    obtain ⟨s', e⟩ := b4 (W'.weaken (fun x => known_quiet (pre := [.own sb]) Q4) (.inl rfl)
      (fun b hb => .inr (.inl ⟨b, hb, rfl⟩)))
    rw [propose_eq e] at ht
    exact ⟨_, ht⟩

theorem updateSync_flag {tr tr' : Tracker} {s : Store} {slot : Nat}
    (h : updateSync tr s slot = .ok tr') : tr'.gateDuties = tr.gateDuties := by
  unfold Node.updateSync at h
  split at h
  · cases h
  next hs _ =>
    cases h
    exact see_gate tr ⟨slot, hs, _⟩

/-- **C88.** Whether duties may be withheld is decided by the configuration alone: nothing that happens,
restarts included, changes it. In particular a node configured not to withhold duties never does. -/
theorem C88_flag {n m : VNode} {vevs : List VEvent} {out : List Signed}
    (h : VRun c n vevs m out) : m.sync.gateDuties = n.sync.gateDuties := by
  induction h with
  | nil => rfl
  | @step vevs m out ev m' l _ e ih =>
    rw [← ih]
    cases ev with
    | other ev =>
      unfold VNode.step at e
      simp only at e
      split at e
      · cases e
      next a f ea =>
        cases e
        cases ev <;> rfl
    | timer now agg =>
      have e : m.tick c now agg = .ok (m', l) := e
      unfold VNode.tick at e
      simp only at e
      split at e
      · cases e; rfl
      · split at e
        · cases e
        · split at e
          · cases e
          · split at e
            · cases e; rfl
            · split at e
              · cases e
              next sync hs =>
                split at e
                · cases e
                · split at e
                  · cases e
                  · split at e
                    · cases e
                    · cases e
                      exact updateSync_flag hs

/-- **C88.** Everything said about nodes in terms of the events they went through applies to nodes that
validate: a run of a validating node, whatever the timer reads, is a run of its actor, in which
besides the events from outside there are only cached reads, ticks, promotions, the node's own votes
delivered to itself (if it aggregates) and the import of its own blocks. -/
theorem C88_history {n m : VNode} {vevs : List VEvent} {out : List Signed}
    (h0 : Actor.init c.ctx a0 body = .ok n.actor) (h : VRun c n vevs m out) :
    ∃ evs, AReach c.ctx a0 body evs m.actor ∧
      ∀ ev ∈ evs, VEvent.other ev ∈ vevs ∨ ∃ agg, ev.Caused out agg := by
  induction h with
  | nil => exact ⟨[], .init h0, fun ev he => by cases he⟩
  | @step vevs m out ev m' l _ e ih =>
    obtain ⟨evs, r, hr⟩ := ih
    cases ev with
    | other ev =>
      unfold VNode.step at e
      simp only at e
      split at e
      · cases e
      next a f ea =>
        cases e
        refine ⟨ev :: evs, .step r ea, fun x hx => ?_⟩
        rcases List.mem_cons.1 hx with rfl | hx
        · exact .inl List.mem_cons_self
        · rcases hr x hx with hr | ⟨agg, hr⟩
          · exact .inl (List.mem_cons_of_mem _ hr)
          · exact .inr ⟨agg, hr.mono (List.subset_append_left _ _)⟩
    | timer now agg =>
      obtain ⟨evs1, r1, hm⟩ := tick_run (show m.tick c now agg = .ok (m', l) from e)
      rw [hm]
      refine ⟨_, r1.areach (fun ev he => he.notBlock) r, fun x hx => ?_⟩
      rcases List.mem_append.1 hx with hx | hx
      · exact .inr ⟨agg, (r1.all x hx).mono (List.subset_append_right _ _)⟩
      · rcases hr x hx with hr | ⟨agg, hr⟩
        · exact .inl (List.mem_cons_of_mem _ hr)
        · exact .inr ⟨agg, hr.mono (List.subset_append_left _ _)⟩

end

namespace Witness
open Verif.Witness

/-- Validators 0 and 2 are ours. -/
def dCtx : VCtx := { dutyCtx with ids := [0, 2] }

/-- The node after `propEvs`: it has block 1 and two aggregates for it, and its clock is in interval
8. -/
def dActor : P Actor := match Actor.init dCtx.ctx wG (some []) with
  | .error e => .error e
  | .ok a => crun dCtx.ctx a propEvs

def dNode : VNode := ⟨dActor.toOption.getD clockActor, Tracker.new true⟩

theorem dNode_reach : AReach dCtx.ctx wG (some []) propEvs dNode.actor := by
  have h : isOk dActor = true := by decide +kernel
  show AReach dCtx.ctx wG (some []) propEvs (dActor.toOption.getD clockActor)
  cases e : dActor with
  | error x => rw [e] at h; cases h
  | ok a =>
    unfold dActor at e
    split at e
    · cases e
    next a0 e0 =>
      have := (AReach.init e0).run (crun_arun e)
      rw [List.append_nil] at this
      exact this

/-- What was signed, in short: votes with their head and target, blocks with the number of votes in
them and whether they were imported. -/
def brief : Signed → Nat × Nat × Nat × Nat × Bool
  | .vote v d sig => (v, d.slot, d.head.slot, d.target.slot, sig.isSome)
  | .block v slot _ (some (sb, .ok ())) =>
    (v, slot, 0, (sb.block.body.map (fun g => (g.bits.filter id).length)).sum, true)
  | .block v slot _ _ => (v, slot, 0, 0, false)

/-- Non-vacuity of `C88_votes`, `C88_votes_accepted` and `C88_idle`: in the second interval of slot 2
both validators vote; in its third, nothing happens. -/
example : World dCtx.ctx.E 0 wVals [] wG (Known wH wG [] propEvs) ∧
    AReach dCtx.ctx wG (some []) propEvs dNode.actor ∧ 0 < wVals.length ∧
    (9000 - dNode.actor.store.genesisTime * 1000) / 800 = 5 * 2 + 1 ∧
    dNode.actor.store.mem.db.time < 5 * 2 + 1 ∧
    ((dNode.tick dCtx 9000 true).toOption.map (fun x => x.2.map brief)) =
      some [(0, 2, 1, 0, true), (2, 2, 1, 0, true)] ∧
    (10000 - dNode.actor.store.genesisTime * 1000) / 800 = 5 * 2 + 2 ∧
    ((dNode.tick dCtx 10000 true).toOption.map (fun x => x.2.map brief)) = some [] :=
  ⟨rWorld (by decide +kernel) (by decide +kernel), dNode_reach, by decide, by decide +kernel,
    by decide +kernel, by decide +kernel, by decide +kernel, by decide +kernel⟩

/-- Non-vacuity of `C88_proposal_partial`: all hypotheses hold in the last interval of slot 1. The node
proposes the block for slot 2 in the name of validator 2, with three votes in it. -/
example : Complete dCtx.X ∧ Live dCtx.X ∧ KeysDistinct dCtx.X wVals ∧
    World dCtx.ctx.E 0 wVals [] wG (Known wH wG [] propEvs) ∧
    NoCollision wH propEvs ∧ OneCopy propEvs ∧
    OwnMade dCtx.X dCtx.ctx (proveJob dCtx.X) wG (some []) propEvs ∧
    AReach dCtx.ctx wG (some []) propEvs dNode.actor ∧
    (7300 - dNode.actor.store.genesisTime * 1000) / 800 + 1 = 5 * 2 ∧
    dNode.actor.store.mem.db.time + 1 < 5 * 2 ∧ 2 % wVals.length ∈ dCtx.ids ∧
    SignsWith dCtx.X wVals (2 % wVals.length) dCtx.signBlock ∧
    CanSign dCtx.X wVals (2 % wVals.length) dCtx.signBlock ∧
    World dCtx.ctx.E 0 wVals [] wG (Known wH wG [] (.own (sgn oBlock) :: propEvs)) ∧
    ((dNode.tick dCtx 7300 true).toOption.map (fun x => x.2.map brief)) =
      some [(2, 2, 0, 3, true)] := by
  refine ⟨wX_complete, wX_live, wVals_distinct, rWorld (by decide +kernel) (by decide +kernel),
    noCollision_of_list (by decide +kernel) (by decide +kernel),
    oneCopy_of_list (by decide +kernel), ?_, dNode_reach, by decide +kernel, by decide +kernel,
    by decide, (wX_sign (by decide)).1, (wX_sign (by decide)).2,
    rWorld (by decide +kernel) (by decide +kernel), by decide +kernel⟩
  intro d g keys evs1 h
  have := h.subset List.mem_cons_self
  simp [propEvs] at this

/-- `Withheld` happens: with the same head in slot 9 the node does not vote. -/
example : Withheld dNode 9 ∧
    ((dNode.tick dCtx 36900 true).toOption.map (fun x => x.2.map brief)) = some [] := by
  have h : dNode.sync.gateDuties = true ∧
      (dNode.actor.store.mem.db.headers.get? dNode.actor.store.mem.db.head).map Header.slot =
        some 1 ∧ (dNode.actor.store.mem.db.liveChain.any (fun e => 9 ≤ e.1.1 + 8)) = true := by
    decide +kernel
  obtain ⟨h1, h2, h3⟩ := h
  refine ⟨⟨h1, ?_, ?_⟩, by decide +kernel⟩
  · obtain ⟨x, h4, h5⟩ := Option.map_eq_some_iff.1 h2
    exact ⟨x, h4, by omega⟩
  · obtain ⟨e, h4, h5⟩ := List.any_eq_true.1 h3
    exact ⟨e, h4, of_decide_eq_true h5⟩

end Witness

end Verif.Node
