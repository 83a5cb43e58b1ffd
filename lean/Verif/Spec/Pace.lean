import Verif.Model.Justifiable
/-!
# How justification advances when all validators vote for the head in every slot

A recurrence on slot numbers: no store, no blocks, no signatures.
-/
namespace Verif.Node
open Verif

/-- The last slot up to `k` that may be justified (or is final) when slot `fin` is finalized. -/
def lastJustifiable (fin : Nat) : Nat → Nat
  | 0 => 0
  | k + 1 =>
    if k + 1 ≤ fin ∨ slotIsJustifiableAfter (k + 1) fin = true then k + 1 else lastJustifiable fin k

/-- What a slot starts with: its number, which is that of the head; the justified and the finalized
slot; and the slot of the safe target. -/
structure Pace where
  slot : Nat
  just : Nat
  fin : Nat
  safe : Nat
  deriving DecidableEq, Repr

/-- The slot the votes have as target: up to three before the head, not before the safe target, then
back to one that may be justified, but not before the justified one. -/
def Pace.aim (p : Pace) : Nat := max p.just (lastJustifiable p.fin (max p.safe (p.slot - 3)))

/-- No slot between the justified one and the target may be justified. -/
def Pace.closes (p : Pace) : Bool :=
  !(List.range' (p.just + 1) (p.aim - (p.just + 1))).any (fun k => slotIsJustifiableAfter k p.fin)

/-- A slot in which the votes are aggregated (`on`) or lost. Votes for a target that is not justified
yet justify it, finalize the justified slot if there is no slot between them that may be justified,
and make the head the safe target. Else the justified block is the safe target. -/
def Pace.step (on : Bool) (p : Pace) : Pace :=
  if on = true ∧ p.just < p.aim then
    ⟨p.slot + 1, p.aim, if p.closes = true then p.just else p.fin, p.slot⟩
  else ⟨p.slot + 1, p.just, p.fin, p.just⟩

/-- From slot 3 of an undisturbed start, the votes of slot `k` are aggregated if `on k`. -/
def paceFrom (on : Nat → Bool) : Nat → Pace
  | 0 => ⟨3, 1, 0, 2⟩
  | k + 1 => (paceFrom on k).step (on (k + 3))

/-- The pace at the start of slot `s`, from slot 3 on. -/
def pace (on : Nat → Bool) (s : Nat) : Pace := paceFrom on (s - 3)

/-- The role is off in the three slots from `a` on. -/
def offThree (a i : Nat) : Bool := !(decide (a ≤ i) && decide (i < a + 3))

end Verif.Node
