import Verif.Spec.Chain
/-!
# A concrete chain used to show that hypotheses are satisfiable
-/
namespace Verif.Witness
open Verif

/-- A toy hash: headers hash to slot + 1, all states to 1. Distinct along the witness chains. -/
def wH : Hash :=
  { state := fun _ => 1, header := fun h => h.slot + 1, body := fun l => l.length + 5,
    attData := fun d => d.slot }

/-- Three validators. -/
def wVals : List Validator := [⟨1, 1, 0⟩, ⟨2, 2, 1⟩, ⟨3, 3, 2⟩]

def wG : State := State.fromGenesis wH 0 wVals

/-- A block on top of the block at `parentSlot`. -/
def mkBlock (slot parentSlot : Nat) (body : List AggAtt) : Block :=
  { slot := slot, proposerIndex := slot % 3, parentRoot := parentSlot + 1, stateRoot := 1,
    body := body }

/-- Checkpoint of the witness block at a slot. -/
def cp (slot : Nat) : Checkpoint := ⟨slot + 1, slot⟩

/-- A vote `source → target` with head = target. -/
def vote (bits : List Bool) (source target : Nat) : AggAtt :=
  { bits := bits, data := { slot := target, head := cp target, target := cp target,
                            source := cp source } }

/-- Import a list of blocks, oldest first. -/
def importAll (H : Hash) : State → List Block → Except StfError State
  | s, [] => .ok s
  | s, b :: bs => match importState H s b with
    | .error e => .error e
    | .ok s' => importAll H s' bs

theorem chain_append {H : Hash} {g s s' : State} {bs cs : List Block} (h : Chain H g bs s)
    (h2 : importAll H s cs = .ok s') : Chain H g (cs.reverse ++ bs) s' := by
  induction cs generalizing s bs with
  | nil => simp only [importAll, Except.ok.injEq] at h2; subst h2; exact h
  | cons c cs ih =>
    simp only [importAll] at h2
    split at h2
    · cases h2
    · next s1 h1 =>
      have := ih (.cons h h1) h2
      simpa using this

theorem chain_of_importAll {H : Hash} {g s' : State} {cs : List Block}
    (h2 : importAll H g cs = .ok s') : Chain H g cs.reverse s' := by
  simpa using chain_append .nil h2

/-- Block 1 (empty), block 2 (all three vote 0 → 1), block 3 (all vote 1 → 2), block 5
(slot 4 skipped; two thirds vote 2 → 3). -/
def wBlocks : List Block :=
  [ mkBlock 1 0 [],
    mkBlock 2 1 [vote [true, true, true] 0 1],
    mkBlock 3 2 [vote [true, false, true] 1 2],
    mkBlock 5 3 [vote [true, false, false] 2 3, vote [true, true, false] 2 3] ]

/-- The state after the witness chain. -/
def wState : State :=
  match importAll wH wG wBlocks with
  | .ok s => s
  | .error _ => wG

theorem wImport : importAll wH wG wBlocks = .ok wState := by decide +kernel

theorem wChain : Chain wH wG wBlocks.reverse wState := chain_of_importAll wImport

theorem wFacts : wState.latestJustified = cp 3 ∧ wState.latestFinalized = cp 2 ∧
    wState.slot = 5 ∧ wState.historicalBlockHashes = [1, 2, 3, 4, 0] ∧
    wState.justifiedSlots = [true, false] := by decide +kernel

/-- The state after the first two witness blocks. -/
def wState2 : State :=
  match importAll wH wG (wBlocks.take 2) with
  | .ok s => s
  | .error _ => wG

/-- The state after the first three witness blocks. -/
def wState3 : State :=
  match importAll wH wG (wBlocks.take 3) with
  | .ok s => s
  | .error _ => wG

theorem wChain2 : Chain wH wG (wBlocks.take 2).reverse wState2 :=
  chain_of_importAll (by decide +kernel)

theorem wStep3 : importState wH wState2 (mkBlock 3 2 [vote [true, false, true] 1 2])
    = .ok wState3 := by decide +kernel

/-- The first two witness blocks followed by an empty block at slot 3: slot 1 is justified,
slot 2 is open for votes. -/
def wBlocksOpen : List Block := wBlocks.take 2 ++ [mkBlock 3 2 []]

def wStateOpen : State :=
  match importAll wH wG wBlocksOpen with
  | .ok s => s
  | .error _ => wG

theorem wChainOpen : Chain wH wG wBlocksOpen.reverse wStateOpen :=
  chain_of_importAll (by decide +kernel)

end Verif.Witness
