import Verif.Lemmas.Db
import Verif.Spec.Witness
/-!
# A concrete run of the store
-/
namespace Verif.Db.Witness
open Verif Verif.Db Verif.Witness

/-- The headers given to the store, as a list. -/
def seenList (H : Hash) (anchor : State) (ops : List Op) : List Header :=
  anchor.latestBlockHeader :: ops.filterMap (fun op => match op with
    | .insertSigned sb => some (sb.block.header H)
    | .insertPending sb => some (sb.block.header H)
    | _ => none)

theorem seen_mem {H : Hash} {anchor : State} {ops : List Op} {h : Header}
    (hs : seen H anchor ops h) : h ∈ seenList H anchor ops := by
  rcases hs with rfl | ⟨sb, h1 | h1, rfl⟩
  · exact List.mem_cons_self
  · exact List.mem_cons_of_mem _ (List.mem_filterMap.2 ⟨_, h1, rfl⟩)
  · exact List.mem_cons_of_mem _ (List.mem_filterMap.2 ⟨_, h1, rfl⟩)

theorem collisionFree_of_list {H : Hash} {anchor : State} {ops : List Op}
    (h : ∀ a ∈ seenList H anchor ops, ∀ b ∈ seenList H anchor ops,
      H.header a = H.header b → a = b) : CollisionFree H anchor ops :=
  fun a b ha hb => h a (seen_mem ha) b (seen_mem hb)

/-- The anchor state as stored: genesis with its state root filled in. -/
def anchorS : State := { wG with latestBlockHeader := { wG.latestBlockHeader with stateRoot := 1 } }

def st1 : State := match importState wH anchorS (mkBlock 1 0 []) with
  | .ok s => s
  | .error _ => wG

def b2 : Block := mkBlock 2 1 [vote [true, true, true] 0 1]

def st2 : State := match importState wH st1 b2 with
  | .ok s => s
  | .error _ => wG

def sb1 : SignedBlock := { block := mkBlock 1 0 [], proof := 11 }
def sb2 : SignedBlock := { block := b2, proof := 22 }

theorem st1_ok : importState wH anchorS (mkBlock 1 0 []) = .ok st1 := by decide +kernel
theorem st2_ok : importState wH st1 b2 = .ok st2 := by decide +kernel

def get! (m : P Mem) : Mem := match m with | .ok m => m | .error _ => ⟨⟨0, 0, 0, default, default,
  [], [], [], [], [], [], []⟩, []⟩

/-- Import two blocks, move the head, restart. Newest first. -/
def ops : List Op := [.restart, .updateCheckpoints 3 none none, .insertState 3 st2,
  .insertSigned sb2, .readState 1, .insertState 2 st1, .insertSigned sb1]

def m0 : Mem := get! (initStore wH wG (some []))
def m1 : Mem := get! (step wH m0 (.insertSigned sb1))
def m2 : Mem := get! (step wH m1 (.insertState 2 st1))
def m3 : Mem := get! (step wH m2 (.readState 1))
def m4 : Mem := get! (step wH m3 (.insertSigned sb2))
def m5 : Mem := get! (step wH m4 (.insertState 3 st2))
def m6 : Mem := get! (step wH m5 (.updateCheckpoints 3 none none))
def m7 : Mem := get! (step wH m6 .restart)

theorem vc1 : ValidChild wH anchorS st1 := by
  refine ⟨?_, ?_, ?_, ?_, ?_, ?_⟩ <;> decide +kernel
theorem vc2 : ValidChild wH st1 st2 := by
  refine ⟨?_, ?_, ?_, ?_, ?_, ?_⟩ <;> decide +kernel

theorem hanc6 : HAnc m5.db.headers 1 3 := by
  refine .up (hd := sb2.block.header wH) (pd := sb1.block.header wH) (by decide +kernel)
    (by decide +kernel) (by decide +kernel) ?_
  refine .up (hd := sb1.block.header wH) (pd := anchorS.latestBlockHeader) (by decide +kernel)
    (by decide +kernel) (by decide +kernel) ?_
  exact .self (hd := anchorS.latestBlockHeader) (by decide +kernel)

theorem run7 : Run wH wG (some []) 1 anchorS ops m7 := by
  have r0 : Run wH wG (some []) 1 anchorS [] m0 := .init (by decide +kernel) (by decide +kernel)
  have r1 := r0.step (op := .insertSigned sb1) (m' := m1) trivial (by decide +kernel)
  have r2 := r1.step (op := .insertState 2 st1) (m' := m2)
    ⟨by decide +kernel, ⟨sb1, .inl (by simp), by decide +kernel⟩,
      ⟨anchorS, by decide +kernel, vc1⟩, .inl (by decide +kernel)⟩ (by decide +kernel)
  have r3 := r2.step (op := .readState 1) (m' := m3) trivial (by decide +kernel)
  have r4 := r3.step (op := .insertSigned sb2) (m' := m4) trivial (by decide +kernel)
  have r5 := r4.step (op := .insertState 3 st2) (m' := m5)
    ⟨by decide +kernel, ⟨sb2, .inl (by simp), by decide +kernel⟩,
      ⟨st1, by decide +kernel, vc2⟩, .inl (by decide +kernel)⟩ (by decide +kernel)
  have r6 := r5.step (op := .updateCheckpoints 3 none none) (m' := m6) hanc6 (by decide +kernel)
  exact r6.step (op := .restart) (m' := m7) trivial (by decide +kernel)

theorem cf7 : CollisionFree wH anchorS ops := collisionFree_of_list (by decide +kernel)

end Verif.Db.Witness
