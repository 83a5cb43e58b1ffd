import Verif.Lemmas.Merkle
import Verif.Spec.Pools
import Verif.Spec.Session
import Verif.Spec.Safety
import Verif.Spec.Ssz
import Mathlib.Data.Nat.Pairing

/-
C119 — a root identifies a vote, a block and a state.

`h x y` stands for SHA-256 of two chunks.  That SHA-256 has no collisions at all is false, so the hypothesis is always
about the inputs that are in fact hashed for the values in question (`inputs`).
-/

namespace Verif.Merkle

open Verif

variable {h : Nat → Nat → Nat}

/-- **C119.** Two votes with the same root are the same vote, unless two inputs hashed for them collide. -/
theorem C119_votes (d d' : AttData) (e : (treeHash h).attData d = (treeHash h).attData d')
    (s : Safe h (dataTree d) (dataTree d')) : d = d' := dataTree_same ⟨e, s⟩

/-- **C119.** The same for the attestations of a block. -/
theorem C119_bodies (l l' : List AggAtt) (hl : Within l) (e : (treeHash h).body l = (treeHash h).body l')
    (s : Safe h (bodyTree l) (bodyTree l')) : l = l' := bodyTree_same hl.1 hl.2 ⟨e, s⟩

/-- **C119.** The root of a block, computed from all its fields, is the root of its header, which is how the other
models compute it. -/
theorem C119_header (b : Block) : root h (blockTree b) = b.root (treeHash h) := merkle_root 3 _ _ rfl

/-- **C119.** Two blocks with the same root are the same block, unless two inputs hashed for them collide. -/
theorem C119_blocks (b b' : Block) (hl : Within b.body) (e : b.root (treeHash h) = b'.root (treeHash h))
    (s : Safe h (blockTree b) (blockTree b')) : b = b' := by
  rw [← C119_header, ← C119_header] at e
  exact blockTree_same hl.1 hl.2 ⟨e, s⟩

/-- **C119.** Two states with the same root are the same state, unless two inputs hashed for them collide. -/
theorem C119_states (s s' : State) (hl : StateWithin s) (e : (treeHash h).state s = (treeHash h).state s')
    (x : Safe h (stateTree s) (stateTree s')) : s = s' :=
  stateTree_same hl.1 hl.2.1 hl.2.2.1 hl.2.2.2.1 hl.2.2.2.2 ⟨e, x⟩

/-- The inputs hashed for the votes and blocks that arrived at a node. -/
def Hashed (h : Nat → Nat → Nat) (evs : List Node.Event) (p : Nat × Nat) : Prop :=
  (∃ d, Node.Occurs evs d ∧ p ∈ inputs h (dataTree d)) ∨ (∃ l, Node.BodyIn evs l ∧ p ∈ inputs h (bodyTree l))

/-- **C119.** What the theorems about a node assume of the hash functions (`Node.NoCollision`) follows if no two of the
64 byte inputs it hashes collide.  The limits hold for everything that arrives (C118). -/
theorem C119_node (evs : List Node.Event) (hw : ∀ sb, Node.Arrived evs sb → Within sb.block.body)
    (hn : NoCollisionOn h (Hashed h evs)) : Node.NoCollision (treeHash h) evs where
  votes d d' hd hd' e := C119_votes d d' e (fun p hp q hq => hn p q (.inl ⟨d, hd, hp⟩) (.inl ⟨d', hd', hq⟩))
  bodies l l' hl hl' e := by
    refine C119_bodies l l' ?_ e (fun p hp q hq => hn p q (.inr ⟨l, hl, hp⟩) (.inr ⟨l', hl', hq⟩))
    rcases hl with rfl | ⟨sb, hs, rfl⟩
    · exact ⟨by simp, by simp⟩
    · exact hw sb hs

/-- The inputs hashed for the votes and blocks of a run with the node's own duties. -/
def RunHashed (h : Nat → Nat → Nat) (evs : List Node.AEvent) (out : List Node.Signed) (p : Nat × Nat) : Prop :=
  (∃ d, Node.VoteIn evs out d ∧ p ∈ inputs h (dataTree d)) ∨
    ∃ l, (l = [] ∨ ∃ sb, Node.Brought evs out sb ∧ sb.block.body = l) ∧ p ∈ inputs h (bodyTree l)

/-- **C119.** The same for runs with the node's own duties (`Node.RunInjective`). -/
theorem C119_run (evs : List Node.AEvent) (out : List Node.Signed)
    (hw : ∀ sb, Node.Brought evs out sb → Within sb.block.body) (hn : NoCollisionOn h (RunHashed h evs out)) :
    Node.RunInjective (treeHash h) evs out where
  votes d d' hd hd' e := C119_votes d d' e (fun p hp q hq => hn p q (.inl ⟨d, hd, hp⟩) (.inl ⟨d', hd', hq⟩))
  bodies l l' hl hl' e := by
    refine C119_bodies l l' ?_ e (fun p hp q hq => hn p q (.inr ⟨l, hl, hp⟩) (.inr ⟨l', hl', hq⟩))
    rcases hl with rfl | ⟨sb, hs, rfl⟩
    · exact ⟨by simp, by simp⟩
    · exact hw sb hs

/-- **C119.** What `World` assumes of the headers of a run: no two of them share a root if no two of the inputs hashed
for them collide, and no header or state has the zero root if no input is hashed to zero. -/
theorem C119_headers (K : Header → Prop)
    (hn : NoCollisionOn h (fun p => ∃ x, K x ∧ p ∈ inputs h (headerTree x))) :
    (∀ a b, K a → K b → (treeHash h).header a = (treeHash h).header b → a = b) ∧
      ((∀ x y, h x y ≠ 0) → (∀ x, (treeHash h).header x ≠ 0) ∧ ∀ s, (treeHash h).state s ≠ 0) :=
  ⟨fun a b ha hb e => headerTree_same ⟨e, fun p hp q hq => hn p q ⟨a, ha, hp⟩ ⟨b, hb, hq⟩⟩,
    fun hz => ⟨fun _ => hz _ _, fun _ => hz _ _⟩⟩

/-- **C119.** Blocks of two chains (the hypothesis of C76): no two share a root and none has the root of genesis, if
all have a slot after genesis and the inputs hashed for them and for the header of genesis do not collide. -/
theorem C119_chains (g : State) (bs : List Block) (hw : ∀ b ∈ bs, Within b.body)
    (hslot : ∀ b ∈ bs, g.latestBlockHeader.slot < b.slot) (hz : ∀ x y, h x y ≠ 0)
    (hn : NoCollisionOn h (fun p => (∃ b ∈ bs, p ∈ inputs h (blockTree b)) ∨
      (∃ b ∈ bs, p ∈ inputs h (headerTree (b.header (treeHash h)))) ∨
      p ∈ inputs h (headerTree (genesisHeader (treeHash h) g)))) :
    Verif.NoCollision (treeHash h) g bs where
  inj b hb b' hb' e :=
    C119_blocks b b' (hw b hb) e (fun p hp q hq => hn p q (.inl ⟨b, hb, hp⟩) (.inl ⟨b', hb', hq⟩))
  notGenesis b hb e := by
    have := headerTree_same (h := h) (x := b.header (treeHash h)) (x' := genesisHeader (treeHash h) g)
      ⟨e, fun p hp q hq => hn p q (.inr (.inl ⟨b, hb, hp⟩)) (.inr (.inr hq))⟩
    have e2 : b.slot = g.latestBlockHeader.slot := congrArg Header.slot this
    have := hslot b hb
    omega
  notZero b _ := hz _ _
  genesisNotZero := hz _ _

/-- **C119.** The limits `Within` hold for every block within the ranges of the types, so for all that is decoded. -/
theorem C119_limits (b : Block) (hb : Ssz.BlockOk b) : Within b.body :=
  ⟨hb.2.2.2.2.1, fun a ha => (hb.2.2.2.2.2 a ha).1⟩

/-! The hypotheses can be met, by a hash function without any collisions; and they are needed. -/

theorem pair_safe (t u : Tree) : Safe Nat.pair t u := fun _ _ _ _ e =>
  Prod.ext (Nat.pair_eq_pair.mp e).1 (Nat.pair_eq_pair.mp e).2

def voteA : AttData := ⟨4, ⟨700, 4⟩, ⟨600, 3⟩, ⟨500, 1⟩⟩

def voteB : AttData := ⟨4, ⟨700, 4⟩, ⟨500, 1⟩, ⟨600, 3⟩⟩

example : (treeHash Nat.pair).attData voteA ≠ (treeHash Nat.pair).attData voteB :=
  fun e => absurd (C119_votes _ _ e (pair_safe _ _)) (by decide)

/-- A hash that is symmetric confuses target and source. -/
example : (treeHash (fun x y => x * y + 1)).attData ⟨4, ⟨700, 4⟩, ⟨600, 3⟩, ⟨3, 600⟩⟩ =
    (treeHash (fun x y => x * y + 1)).attData ⟨4, ⟨700, 4⟩, ⟨3, 600⟩, ⟨600, 3⟩⟩ := by decide +kernel

/-- Nine bits and ten bits with the same ones have different roots. -/
example (bits : List Bool) (hb : bits.length ≤ 4096) (d : AttData) :
    (treeHash Nat.pair).body [⟨bits, d⟩] ≠ (treeHash Nat.pair).body [⟨bits ++ [false], d⟩] := fun e => by
  have := C119_bodies _ _ ⟨by simp, by simpa using hb⟩ e (pair_safe _ _)
  simp at this

example : Node.NoCollision (treeHash Nat.pair)
    [.attestation 0 voteA 5 true, .block ⟨⟨5, 1, 700, 9, [⟨[true, true], voteB⟩]⟩, 3⟩] := by
  refine C119_node _ ?_ (fun p q _ _ e => Prod.ext (Nat.pair_eq_pair.mp e).1 (Nat.pair_eq_pair.mp e).2)
  intro sb hs
  simp only [Node.Arrived, List.mem_cons, List.not_mem_nil, or_false, reduceCtorEq, false_or,
    Node.Event.block.injEq, or_self] at hs
  subst hs
  exact ⟨by decide, by decide⟩

end Verif.Merkle
