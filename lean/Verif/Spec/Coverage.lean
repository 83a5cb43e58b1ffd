import Verif.Model.Coverage
import Verif.Lemmas.Coverage
import Verif.Spec.Session
/-!
# Words for the coverage report
-/
namespace Verif.Node
open Verif Verif.Db Verif.Sync Verif.Buffers Verif.Build

/-- Any sequence of events of a node with its gauges, as in `ANRun`. -/
inductive MRun (c : VCtx) (u : Subnets) (n : Mon) :
    List AEvent → Mon → List Signed → List Published → Prop
  | nil : MRun c u n [] n [] []
  | step {evs : List AEvent} {m : Mon} {out : List Signed} {pub : List Published} {ev : AEvent}
      {m' : Mon} {l : List Signed} {p : List Published} : MRun c u n evs m out pub →
      m.step c u ev = .ok (m', l, p) → MRun c u n (ev :: evs) m' (out ++ l) (pub ++ p)

/-- A node whose gauges were never written. -/
def ANode.monitored (n : ANode) : Mon := ⟨n, none, fun _ => 0⟩

/-- The aggregates not yet counted in fork choice include one of a vote for the slot with these
participants. -/
def Waiting (s : Store) (slot : Nat) (bits : Bits) : Prop :=
  ∃ r e, s.newP.data.get? r = some e ∧ e.data.slot = slot ∧ ∃ g ∈ e.proofs, g.participants = bits

/-- The tick is not skipped, and falls in the interval that begins `start` milliseconds into a slot. -/
def TicksAt (s : Store) (now start : Nat) : Prop :=
  (s.mem.db.time = 0 ∨ s.mem.db.time < (now - s.genesisTime * 1000) / 800) ∧
  start ≤ (now - s.genesisTime * 1000) % 4000 ∧ (now - s.genesisTime * 1000) % 4000 < start + 800

/-- The section a gauge belongs to. -/
def Gauge.of : Gauge → Option Section
  | .validators s => some s
  | .inSubnet s _ => some s
  | .subnets s => some s
  | _ => none

/-- The gauges of a section show the set: its size, the part of it on each subnet, and the number of
subnets it touches. -/
def Shows (g : Gauges) (s : Section) (committees : Nat) (S : Finset Nat) : Prop :=
  g (.validators s) = S.card ∧
  (∀ i, i < committees → g (.inSubnet s i) = (S.filter (fun v => v % committees = i)).card) ∧
  g (.subnets s) = (S.image (fun v => v % committees)).card

end Verif.Node
