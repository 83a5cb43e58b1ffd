import Verif.Lemmas.Line
import Verif.Lemmas.OneGroup
import Verif.Props.C88_Duties
import Verif.Model.Worker
/-!
# Ticks of a node on a line, one interval at a time
-/
namespace Verif.Node
open Verif Verif.Db Verif.Sync Verif.Buffers Verif.Build

/-- Buffers are empty but for known votes, which are as asked. -/
structure Idle (Q : Root → PEntry → Prop) (σ : Store) : Prop where
  gossip : σ.gossip.data = []
  cap : σ.gossip.capacity = 2048
  newP : σ.newP.data = []
  fcNew : σ.fc.new = []
  pool : All Q σ.knownP.data

theorem SameMem.idle {Q : Root → PEntry → Prop} {a b : Store} (m : SameMem a b) (h : Idle Q a) :
    Idle Q b :=
  ⟨by rw [m.gossip]; exact h.gossip, by rw [m.gossip]; exact h.cap, by rw [m.newP]; exact h.newP,
    by rw [m.fc]; exact h.fcNew, by rw [m.knownP]; exact h.pool⟩

section
variable {c : VCtx} {t : Nat} {vals : List Validator} {K : Header → Prop} {root : Root}
  {anchor : State} {f : Nat → Root} {s : Nat} {top : State} {ops : List Db.Op} {σ : Store}

theorem Row.headSlot {E : Env} (R : Row E t vals K root anchor f s top ops σ) :
    Node.headSlot σ = .ok s := by
  obtain ⟨h, h1, h2⟩ := R.line.mem s (Nat.le_refl _)
  unfold Node.headSlot Store.header
  rw [R.head, h1]
  simp only [h2]

theorem Row.updateSync {E : Env} (R : Row E t vals K root anchor f s top ops σ) (tr : Tracker) :
    ∃ tr', updateSync tr σ s = .ok tr' ∧ tr'.dutiesAllowed = true := by
  unfold Node.updateSync
  rw [R.headSlot]
  refine ⟨_, rfl, ?_⟩
  unfold Tracker.update Tracker.dutiesAllowed lagThreshold
  simp only [Nat.sub_self]
  split
  · simp
  · split <;> simp

theorem Row.ourProposer (W : World c.ctx.E t vals [] (State.fromGenesis c.ctx.E.H t vals) K)
    (R : Row c.ctx.E t vals K root anchor f s top ops σ) (slot : Nat) :
    ∃ σ' ops', ourProposer c.ids σ slot =
        .ok (c.ids.find? (fun v => isProposer v slot vals.length), σ') ∧
      σ'.mem.db = σ.mem.db ∧ SameMem σ σ' ∧ Row c.ctx.E t vals K root anchor f s top ops' σ' := by
  obtain ⟨st, σ', ops', h1, h2, h3, h4, h5⟩ := R.headState W
  refine ⟨σ', ops', ?_, h3, h4, h5⟩
  unfold Node.ourProposer
  rw [h1]
  simp only [state_vals W R.inv h2]

theorem find_proposer {ids : List Nat} {k slot : Nat} (hk : 0 < k) (hm : slot % k ∈ ids) :
    ids.find? (fun v => isProposer v slot k) = some (slot % k) := by
  cases hf : ids.find? (fun v => isProposer v slot k) with
  | none =>
    rw [List.find?_eq_none] at hf
    exact absurd (isProposer_self hk) (hf _ hm)
  | some v =>
    have := List.find?_some hf
    rw [isProposer_eq this]

theorem find_none {ids : List Nat} {k slot : Nat} (hm : slot % k ∉ ids) :
    ids.find? (fun v => isProposer v slot k) = none := by
  rw [List.find?_eq_none]
  intro v hv h
  rw [isProposer_eq h] at hv
  exact hm hv

/-- One interval: the store's own work, then the duty of the actor. -/
theorem Row.tick (W : World c.ctx.E t vals [] (State.fromGenesis c.ctx.E.H t vals) K) {n : VNode}
    (R : Row c.ctx.E t vals K root anchor f s top ops n.actor.store) (hv : 0 < vals.length)
    {now j : Nat} (hj : 1 ≤ j) (hj' : j ≤ 4) (agg : Bool) {i : Interval}
    (hi : Interval.ofCount j = some i)
    (hnow : (now - n.actor.store.genesisTime * 1000) / 800 = 5 * s + j)
    (htime : n.actor.store.mem.db.time + 1 = 5 * s + j) :
    ∃ sync σ1 ops1, sync.dutiesAllowed = true ∧ σ1.mem.db = n.actor.store.mem.db ∧
      SameMem n.actor.store σ1 ∧ Row c.ctx.E t vals K root anchor f s top ops1 σ1 ∧
      n.tick c now agg =
        match duty c.H (σ1.setTime (5 * s + j)) i false with
        | .error e => .error e
        | .ok σ2 =>
          match actorDuty c sync s agg i σ2 with
          | .error e => .error e
          | .ok (σ3, l) => .ok ({ actor := { n.actor with store := σ3 }, sync := sync }, l) := by
  obtain ⟨st, σ1, ops1, h1, h2, h3, h4, R1⟩ := R.headState W
  obtain ⟨sync, h5, h6⟩ := R1.updateSync n.sync
  refine ⟨sync, σ1, ops1, h6, h3, h4, R1, ?_⟩
  have hms := ofMs_interval hnow hi
  have hs : (now - n.actor.store.genesisTime * 1000) / 4000 = s := by omega
  have e1 : (now - n.actor.store.genesisTime * 1000) / msPerSlot = s := hs
  have e2 : (now - n.actor.store.genesisTime * 1000) / msPerInterval = 5 * s + j := hnow
  have hne : i ≠ .publication := by
    intro h
    subst h
    have : j = 1 ∨ j = 2 ∨ j = 3 ∨ j = 4 := by omega
    rcases this with rfl | rfl | rfl | rfl <;> cases hi
  have ht : onTick c.H σ1 now false = duty c.H (σ1.setTime (5 * s + j)) i false := by
    unfold onTick tickTarget
    simp only [h4.genesis, e2, h3]
    have hgap : ¬ (5 * s + j - n.actor.store.mem.db.time > intervalsPerSlot) := by
      show ¬ (_ > 5)
      omega
    rw [if_neg hgap]
    have h1' : 5 * s + j - σ1.mem.db.time = 1 := by rw [h3]; omega
    rw [h1']
    unfold tickLoop
    have hst : σ1.setTime (σ1.mem.db.time + 1) = σ1.setTime (5 * s + j) := by rw [h3, htime]
    have hic : Interval.ofCount (σ1.setTime (5 * s + j)).mem.db.time = some i := by
      show Interval.ofCount (5 * s + j) = some i
      unfold Interval.ofCount at hi ⊢
      have : (5 * s + j) % intervalsPerSlot = j % intervalsPerSlot := by
        show (5 * s + j) % 5 = j % 5
        omega
      rw [this]
      exact hi
    simp only [hst, hic, Bool.false_and]
    cases duty c.H (σ1.setTime (5 * s + j)) i false with
    | error e => rfl
    | ok x => rfl
  unfold VNode.tick
  simp only [e1, e2]
  rw [if_neg (by omega), hms]
  simp only
  rw [h1]
  simp only
  rw [if_neg (by
    rw [state_vals W R.inv h2]
    simp only [List.isEmpty_iff]
    intro h
    rw [h] at hv
    exact absurd hv (Nat.lt_irrefl _)), h5]
  simp only
  rw [if_neg (fun h => hne h.1)]
  simp only [Option.isSome_none]
  rw [ht]
  cases duty c.H (σ1.setTime (5 * s + j)) i false with
  | error e => rfl
  | ok σ2 =>
    simp only
    cases actorDuty c sync s agg i σ2 with
    | error e => rfl
    | ok x => rfl

end
end Verif.Node
