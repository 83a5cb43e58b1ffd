import Verif.Spec.Store
import Verif.Spec.DbWitness
/-!
# Concrete node runs
-/
namespace Verif.Node.Witness
open Verif Verif.Db Verif.Node Verif.Witness

/-- The toy hash, and cryptography that accepts everything. -/
def wE : Env :=
  { H := wH, verifyBlock := fun _ _ => true, keyOk := fun _ => true
    verifySig := fun _ _ _ _ => true, verifyAgg := fun _ _ _ _ => true }

def sgn (b : Block) : SignedBlock := { block := b, proof := b.slot }

/-- Run events, newest first, from genesis. -/
def run : List Event → P Store
  | [] => init wE wG (some [])
  | ev :: evs => match run evs with
    | .error e => .error e
    | .ok s => step wE s ev

def wEmpty : Store :=
  { mem := Db.Witness.m0, fc := ⟨[], []⟩, newP := Buffers.PayloadBuffer.new 64
    knownP := Buffers.PayloadBuffer.new 512, gossip := Buffers.GossipBuffer.new 2048
    genesisTime := 0 }

/-- The store after a run. -/
def after (evs : List Event) : Store := match run evs with
  | .ok s => s
  | .error _ => wEmpty

def isOk {α : Type} : P α → Bool
  | .ok _ => true
  | .error _ => false

theorem run_after {evs : List Event} (h : isOk (run evs) = true) : run evs = .ok (after evs) := by
  unfold after
  cases e : run evs with
  | ok s => rfl
  | error e' => rw [e] at h; cases h

theorem reach_run : ∀ {evs : List Event} {s : Store}, run evs = .ok s →
    Reach wE wG (some []) evs s
  | [], s, h => .init h
  | ev :: evs, s, h => by
    unfold run at h
    split at h
    · cases h
    next s1 e => exact .step (reach_run e) h

theorem reach_after {evs : List Event} (h : isOk (run evs) = true) :
    Reach wE wG (some []) evs (after evs) := reach_run (run_after h)

/-- The known headers, as a list. -/
def knownList (evs : List Event) : List Header :=
  genesisHeader wH wG :: evs.filterMap (fun ev => match ev with
    | .block sb => some (sb.block.header wH)
    | .own sb => some (sb.block.header wH)
    | _ => none)

theorem known_mem {evs : List Event} {h : Header} (hk : Known wH wG [] evs h) :
    h ∈ knownList evs := by
  rcases hk with rfl | ⟨b, hb, -⟩ | ⟨sb, hs, rfl⟩
  · exact List.mem_cons_self
  · cases hb
  · rcases hs with hs | hs <;> exact List.mem_cons_of_mem _ (List.mem_filterMap.2 ⟨_, hs, rfl⟩)

theorem world_of_list {evs : List Event}
    (h1 : ∀ a ∈ knownList evs, ∀ b ∈ knownList evs, wH.header a = wH.header b → a = b)
    (h2 : ∀ a ∈ knownList evs, a.parentRoot ≤ a.slot) :
    World wE 0 wVals [] wG (Known wH wG [] evs) :=
  { chain := .nil
    headerNZ := fun h => Nat.succ_ne_zero _
    stateNZ := fun _ => Nat.one_ne_zero
    genesis := .inl rfl
    old := fun b hb => by cases hb
    collisionFree := fun a b ha hb => h1 a (known_mem ha) b (known_mem hb)
    acyclic := ⟨id, fun h hk => Nat.lt_succ_of_le (h2 h (known_mem hk))⟩ }

/-- Tick to interval 40 (slot 8), then blocks 1, 2 (votes 0 → 1), 3; block 4 on 3 with votes
1 → 2, and block 5 also on 3. Newest first. -/
def forkEvs : List Event :=
  [ .block (sgn (mkBlock 4 3 [vote [true, true, true] 1 2])),
    .block (sgn (mkBlock 3 2 [])),
    .block (sgn (mkBlock 2 1 [vote [true, true, true] 0 1])),
    .block (sgn (mkBlock 1 0 [])),
    .tick 32000 false ]

def forkEv : Event := .block (sgn (mkBlock 5 3 []))

end Verif.Node.Witness
