import Verif.Lemmas.ClockFrame
import Verif.Spec.StoreWitness
import Verif.Props.C78_Signatures
/-!
# C63: a validator signs at most one vote and one block per slot

Signing two different messages for the same slot is an equivocation, and with the one-time XMSS keys
it also reveals the key. The node's only protection is the guard at the top of `on_tick` together
with the stored clock.
-/
namespace Verif.Node
open Verif Verif.Db Verif.Sync Verif.Witness Verif.Node.Witness

/-- Any sequence of events of a validating node, with everything it signed (newest event first,
signatures in order of signing). -/
inductive VRun (c : VCtx) (n : VNode) : List VEvent → VNode → List Signed → Prop
  | nil : VRun c n [] n []
  | step {evs : List VEvent} {m : VNode} {out : List Signed} {ev : VEvent} {m' : VNode}
      {l : List Signed} : VRun c n evs m out → m.step c ev = .ok (m', l) →
      VRun c n (ev :: evs) m' (out ++ l)

/-- Two signatures of the same kind by the same validator for the same slot. -/
def Conflict : Signed → Signed → Prop
  | .vote v d _, .vote v' d' _ => v = v' ∧ d.slot = d'.slot
  | .block v s _ _, .block v' s' _ _ => v = v' ∧ s = s'
  | _, _ => False

/-- The interval a signature belongs to: votes to the second of their slot, blocks to the last one
before their slot. -/
def Signed.due : Signed → Nat
  | .vote _ d _ => 5 * d.slot + 1
  | .block _ s _ _ => 5 * s - 1

theorem signVotes_out {c : VCtx} {d : AttData} {agg : Bool} : ∀ (vs : List Nat)
    {s s' : Store} {l : List Signed}, signVotes c d agg vs s = .ok (s', l) →
    l = vs.map (fun v => .vote v d (c.sign v d)) ∧ Later s s'
  | [], s, s', l, h => by cases h; exact ⟨rfl, .refl _⟩
  | v :: vs, s, s', l, h => by
    unfold signVotes at h
    split at h
    next hs =>
      split at h
      · cases h
      next e =>
        cases h
        obtain ⟨h1, h2⟩ := signVotes_out vs e
        exact ⟨by rw [h1, List.map_cons, hs], h2⟩
    next hs =>
      split at h
      · cases h
      next s1 e1 =>
        split at h
        · cases h
        next e =>
          cases h
          obtain ⟨h1, h2⟩ := signVotes_out vs e
          refine ⟨by rw [h1, List.map_cons, hs], Later.trans ?_ h2⟩
          split at e1
          · exact .attestation e1
          · cases e1; exact .refl _

theorem produceData_slot {s s' : Store} {slot : Nat} {d : AttData}
    (h : produceAttestationData s slot = .ok (d, s')) : d.slot = slot ∧ Later s s' := by
  unfold produceAttestationData at h
  simp only at h
  split at h
  · cases h
  · cases h
  next e =>
    split at h
    · cases h
    · split at h
      · cases h
      · cases h; exact ⟨rfl, .getState e⟩

theorem produceVotes_out {c : VCtx} {s s' : Store} {slot : Nat} {agg : Bool}
    {l : List Signed} (h : produceVotes c s slot agg = .ok (s', l)) :
    (∃ d : AttData, d.slot = slot ∧ l = c.ids.map (fun v => .vote v d (c.sign v d))) ∧ Later s s' := by
  unfold produceVotes at h
  split at h
  · cases h
  next d s1 e =>
    obtain ⟨h1, h2⟩ := produceData_slot e
    obtain ⟨h3, h4⟩ := signVotes_out _ h
    exact ⟨⟨d, h1, h3⟩, h2.trans h4⟩

theorem Later.headState {s s' : Store} {st : State} (e : headState s = .ok (st, s')) :
    Later s s' := by
  unfold Node.headState at e
  split at e
  · cases e
  · cases e
  next e2 => cases e; exact .getState e2

theorem Later.proposalStore {H : Hash} {s s' : Store} {slot : Nat}
    (h : proposalStore H s slot = .ok s') : Later s s' := by
  unfold Node.proposalStore at h
  split at h
  · cases h
  next e => exact (Later.onTick e).trans (.acceptNew h)

theorem Later.produceBlock {X : Crypto} {H : Hash} {ord : Root → List Nat → List Nat} {s s' : Store}
    {slot vid : Nat} {k : Build.Config} {o : Option (Block × List Buffers.Agg)}
    (h : produceBlock X H ord s slot vid k = .ok (s', o)) : Later s s' := by
  unfold Node.produceBlock at h
  split at h
  · cases h
  next e => cases h; exact .getState e
  next e =>
    have L := Later.getState e
    split at h
    · cases h; exact L
    · split at h
      · cases h
      · cases h; exact L
      · cases h; exact L

theorem propose_out {c : VCtx} {s s' : Store} {slot vid : Nat} {l : List Signed}
    (h : propose c s slot vid = .ok (s', l)) :
    (l = [] ∨ ∃ r o, l = [.block vid slot r o]) ∧ Later s s' := by
  unfold propose at h
  split at h
  · cases h
  next e1 =>
  have x1 := Later.proposalStore e1
  split at h
  · cases h
  next e2 => cases h; exact ⟨.inl rfl, x1.trans (.produceBlock e2)⟩
  next e2 =>
  have x2 := x1.trans (.produceBlock e2)
  split at h
  · cases h
  next e3 =>
  have x3 := x2.trans (.headState e3)
  split at h
  · cases h; exact ⟨.inr ⟨_, _, rfl⟩, x3⟩
  · split at h
    · cases h
    next e4 => cases h; exact ⟨.inr ⟨_, _, rfl⟩, x3.trans (.onBlock e4)⟩

theorem ourProposer_out {ids : List Nat} {s s' : Store} {slot : Nat} {p : Option Nat}
    (h : ourProposer ids s slot = .ok (p, s')) : (∀ v, p = some v → v ∈ ids) ∧ Later s s' := by
  unfold ourProposer headState at h
  split at h
  · cases h
  next st s1 e =>
    cases h
    refine ⟨fun v hv => List.mem_of_find?_eq_some hv, ?_⟩
    split at e
    · cases e
    · cases e
    next e2 => cases e; exact .getState e2

/-- What a tick signs, and when. -/
theorem tick_out {c : VCtx} {n n' : VNode} {now : Nat} {agg : Bool} {l : List Signed}
    (h : n.tick c now agg = .ok (n', l)) :
    Later n.actor.store n'.actor.store ∧
    (l = [] ∨
      ((now - n.actor.store.genesisTime * 1000) / 800 > n.actor.store.mem.db.time ∧
       (now - n.actor.store.genesisTime * 1000) / 800 ≤ n'.actor.store.mem.db.time ∧
       ((∃ d : AttData, 5 * d.slot + 1 = (now - n.actor.store.genesisTime * 1000) / 800 ∧
          d.slot = (now - n.actor.store.genesisTime * 1000) / 4000 ∧
          l = c.ids.map (fun v => .vote v d (c.sign v d))) ∨
        (∃ v slot r o, 5 * slot = (now - n.actor.store.genesisTime * 1000) / 800 + 1 ∧
          v ∈ c.ids ∧ l = [.block v slot r o])))) := by
  unfold VNode.tick at h
  simp only at h
  generalize hm : now - n.actor.store.genesisTime * 1000 = ms at h ⊢
  have hT : ms / msPerInterval = ms / 800 := rfl
  have hS : ms / msPerSlot = ms / 4000 := rfl
  rw [hT, hS] at h
  by_cases hg : n.actor.store.mem.db.time > 0 ∧ ms / 800 ≤ n.actor.store.mem.db.time
  · rw [if_pos hg] at h; cases h; exact ⟨.refl _, .inl rfl⟩
  rw [if_neg hg] at h
  cases hi : Interval.ofMs ms with
  | none => rw [hi] at h; cases h
  | some i =>
  rw [hi] at h
  simp only at h
  split at h
  · cases h
  next st s1 e1 =>
  have L1 : Later n.actor.store s1 := by
    unfold headState at e1
    split at e1
    · cases e1
    · cases e1
    next e2 => cases e1; exact .getState e2
  split at h
  · cases h; exact ⟨L1, .inl rfl⟩
  split at h
  · cases h
  next sync e2 =>
  split at h
  · cases h
  next p s2 e3 =>
  have L2 : Later s1 s2 := by
    split at e3
    · exact (ourProposer_out e3).2
    · cases e3; exact .refl _
  split at h
  · cases h
  next s3 e4 =>
  have L3 : Later s2 s3 := .onTick e4
  have T3 : ms / 800 ≤ s3.mem.db.time := by
    rw [(C32_clock e4).1, L2.genesis, L1.genesis, hm]; omega
  split at h
  · cases h
  next s4 l' e5 =>
  cases h
  have gt0 : (ms / 800 % 5 = 1 ∨ ms / 800 % 5 = 4) → ms / 800 > n.actor.store.mem.db.time := by
    intro h5
    by_cases ht : n.actor.store.mem.db.time > 0
    · exact Nat.lt_of_not_le fun hle => hg ⟨ht, hle⟩
    · omega
  have cnt : ms / 800 / 5 = ms / 4000 := by omega
  unfold Interval.ofMs Interval.ofCount at hi
  have h5 : ms / msPerInterval % intervalsPerSlot = ms / 800 % 5 := rfl
  rw [h5] at hi
  have L13 := (L1.trans L2).trans L3
  cases i with
  | attestation =>
    have hm1 : ms / 800 % 5 = 1 := by
      split at hi <;> first | (cases hi; done) | assumption
    unfold actorDuty at e5
    simp only at e5
    split at e5
    · obtain ⟨⟨d, d1, d2⟩, L4⟩ := produceVotes_out e5
      refine ⟨L13.trans L4, .inr ⟨gt0 (.inl hm1), Nat.le_trans T3 L4.time, .inl ⟨d, ?_, d1, d2⟩⟩⟩
      omega
    · cases e5; exact ⟨L13, .inl rfl⟩
  | endOfSlot =>
    have hm4 : ms / 800 % 5 = 4 := by
      split at hi <;> first | (cases hi; done) | assumption
    unfold actorDuty at e5
    simp only at e5
    split at e5
    · cases e5
    next e6 => cases e5; exact ⟨L13.trans (ourProposer_out e6).2, .inl rfl⟩
    next v s5 e6 =>
      obtain ⟨hv, L5⟩ := ourProposer_out e6
      split at e5
      · obtain ⟨hl, L6⟩ := propose_out e5
        refine ⟨(L13.trans L5).trans L6, ?_⟩
        rcases hl with hl | ⟨r, o, hl⟩
        · exact .inl hl
        · exact .inr ⟨gt0 (.inr hm4), Nat.le_trans (Nat.le_trans T3 L5.time) L6.time,
            .inr ⟨v, _, r, o, by omega, hv v rfl, hl⟩⟩
      · cases e5; exact ⟨L13.trans L5, .inl rfl⟩
  | publication => cases e5; exact ⟨L13, .inl rfl⟩
  | aggregation => cases e5; exact ⟨L13, .inl rfl⟩
  | safeTarget => cases e5; exact ⟨L13, .inl rfl⟩

/-- What any event signs belongs to an interval the clock has just passed, and has no conflict within
itself. -/
theorem vstep_out {c : VCtx} (hk : c.ids.Nodup) {n n' : VNode} {ev : VEvent}
    {l : List Signed} (h : n.step c ev = .ok (n', l)) :
    Later n.actor.store n'.actor.store ∧
    (∀ x ∈ l, n.actor.store.mem.db.time < x.due ∧ x.due ≤ n'.actor.store.mem.db.time) ∧
    l.Pairwise (fun x y => ¬ Conflict x y) := by
  cases ev with
  | other ev =>
    unfold VNode.step at h
    simp only at h
    split at h
    · cases h
    next e => cases h; exact ⟨.actorStep e, (fun x hx => by cases hx), .nil⟩
  | timer now agg =>
    obtain ⟨L, hl⟩ := tick_out (show n.tick c now agg = .ok (n', l) from h)
    refine ⟨L, ?_⟩
    rcases hl with rfl | ⟨g1, g2, ⟨d, d1, -, rfl⟩ | ⟨v, slot, r, o, s1, -, rfl⟩⟩
    · exact ⟨fun x hx => (by cases hx), .nil⟩
    · refine ⟨fun x hx => ?_, ?_⟩
      · obtain ⟨v, -, rfl⟩ := List.mem_map.1 hx
        show _ < 5 * d.slot + 1 ∧ 5 * d.slot + 1 ≤ _
        omega
      · rw [List.pairwise_map]
        exact hk.imp (fun hne h => hne h.1)
    · refine ⟨fun x hx => ?_, List.pairwise_singleton _ _⟩
      cases List.mem_singleton.1 hx
      show _ < 5 * slot - 1 ∧ 5 * slot - 1 ≤ _
      omega

theorem vrun_out {c : VCtx} (hk : c.ids.Nodup) {n : VNode} {evs : List VEvent}
    {m : VNode} {out : List Signed} (h : VRun c n evs m out) :
    (∀ x ∈ out, x.due ≤ m.actor.store.mem.db.time) ∧ out.Pairwise (fun x y => ¬ Conflict x y) := by
  induction h with
  | nil => exact ⟨fun x hx => (by cases hx), .nil⟩
  | step _ e ih =>
    obtain ⟨L, h1, h2⟩ := vstep_out hk e
    refine ⟨fun x hx => ?_, List.pairwise_append.2 ⟨ih.2, h2, fun x hx y hy hc => ?_⟩⟩
    · rcases List.mem_append.1 hx with hx | hx
      · exact Nat.le_trans (ih.1 x hx) L.time
      · exact (h1 x hx).2
    · have a := ih.1 x hx
      have b := (h1 y hy).1
      have : x.due = y.due := by
        cases x <;> cases y
        · show 5 * _ + 1 = 5 * _ + 1; rw [hc.2]
        · exact hc.elim
        · exact hc.elim
        · show 5 * _ - 1 = 5 * _ - 1; rw [hc.2]
      omega

/-- **C63.** Whatever the wall clock reads when the timer fires (including going backwards), whatever
else happens in between, and across restarts on the same database: no validator key ever signs two
votes for one slot or two blocks for one slot. From any state whatsoever. -/
theorem C63_no_double_signing {c : VCtx} (hk : c.ids.Nodup) {n : VNode}
    {evs : List VEvent} {m : VNode} {out : List Signed} (h : VRun c n evs m out) :
    out.Pairwise (fun x y => ¬ Conflict x y) := (vrun_out hk h).2

/-- **C63.** A vote is signed only during the second interval (800 to 1600 ms) of the slot it is
for, and a block only during the last interval before its slot; each by one of our own keys. -/
theorem C63_on_time {c : VCtx} {n n' : VNode} {now : Nat} {agg : Bool} {l : List Signed}
    (h : n.step c (.timer now agg) = .ok (n', l)) :
    (∀ v d sig, Signed.vote v d sig ∈ l → v ∈ c.ids ∧
      d.slot * 4000 + 800 ≤ now - n.actor.store.genesisTime * 1000 ∧
      now - n.actor.store.genesisTime * 1000 < d.slot * 4000 + 1600) ∧
    (∀ v slot r o, Signed.block v slot r o ∈ l → v ∈ c.ids ∧
      slot * 4000 ≤ now - n.actor.store.genesisTime * 1000 + 800 ∧
      now - n.actor.store.genesisTime * 1000 < slot * 4000) := by
  obtain ⟨-, hl⟩ := tick_out (show n.tick c now agg = .ok (n', l) from h)
  rcases hl with rfl | ⟨g1, g2, ⟨d, d1, d2, rfl⟩ | ⟨v, slot, r, o, s1, s2, rfl⟩⟩
  · exact ⟨fun _ _ _ h => (by cases h), fun _ _ _ _ h => (by cases h)⟩
  · refine ⟨fun v d' sig hx => ?_, fun v s r o hx => ?_⟩
    · obtain ⟨w, hw, e⟩ := List.mem_map.1 hx
      cases e
      refine ⟨hw, ?_⟩
      omega
    · obtain ⟨w, -, e⟩ := List.mem_map.1 hx
      cases e
  · refine ⟨fun v d' sig hx => ?_, fun v' s' r' o' hx => ?_⟩
    · cases List.mem_singleton.1 hx
    · cases List.mem_singleton.1 hx
      refine ⟨s2, ?_⟩
      omega

/-! ## A concrete run -/

/-- Validators 0 and 1 are ours. -/
def dutyCtx : VCtx :=
  { X := wX, H := wH, order := fun l => l, reagg := fun _ _ => [], ord := fun _ l => l
    config := ⟨true, 8⟩, ids := [0, 1], sign := fun _ d => some d.slot
    signBlock := fun _ slot _ => some slot }

/-- Run, newest event first, from genesis. -/
def vrun : List VEvent → P (VNode × List Signed)
  | [] => match Actor.init dutyCtx.ctx wG (some []) with
    | .error e => .error e
    | .ok a => .ok (⟨a, Tracker.new true⟩, [])
  | ev :: evs => match vrun evs with
    | .error e => .error e
    | .ok (n, out) => match n.step dutyCtx ev with
      | .error e => .error e
      | .ok (n, l) => .ok (n, out ++ l)

/-- Votes in slot 0 at 900 ms, the timer again at 1500 ms, a restart, 1550 ms, then the proposal of
validator 1 for slot 1 at 3300 ms, the clock jumps back to 1000 ms and 3300 ms, then votes of slot 1:
four votes and one block, once each. -/
example : (match vrun ([.timer 5000 true, .timer 3300 true, .timer 1000 false, .timer 3300 true,
      .timer 1550 true, .other .restart, .timer 1500 true, .timer 900 true] : List VEvent) with
    | .ok (_, out) => out.map (fun
      | .vote v d _ => (0, v, d.slot)
      | .block v s _ _ => (1, v, s))
    | .error _ => []) = [(0, 0, 0), (0, 1, 0), (1, 1, 1), (0, 0, 1), (0, 1, 1)] := by
  decide +kernel

end Verif.Node
