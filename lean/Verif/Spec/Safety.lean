import Verif.Spec.Chain
/-!
# Specification vocabulary for accountable safety

The usual Casper vocabulary, on attestation data as it appears in blocks. Nothing here is used by
the model.
-/
namespace Verif

/-- Validator `v` appears in an aggregate with data `d` in one of the blocks. -/
def Casts (bs : List Block) (v : Nat) (d : AttData) : Prop :=
  ∃ b ∈ bs, ∃ a ∈ b.body, a.data = d ∧ a.bits[v]? = some true

/-- Two votes for different targets at the same slot. -/
def DoubleVote (d d' : AttData) : Prop :=
  d.target.slot = d'.target.slot ∧ d.target.root ≠ d'.target.root

/-- The first vote surrounds the second. -/
def Surrounds (d d' : AttData) : Prop :=
  d.source.slot < d'.source.slot ∧ d'.target.slot < d.target.slot

/-- The two Casper offences. -/
def Slashable (d d' : AttData) : Prop := DoubleVote d d' ∨ Surrounds d d' ∨ Surrounds d' d

/-- A wider notion: also any two different votes for the same target slot or cast for the same
slot. -/
def Suspicious (d d' : AttData) : Prop :=
  Slashable d d' ∨ (d ≠ d' ∧ (d.target.slot = d'.target.slot ∨ d.slot = d'.slot))

/-- Validator `v` cast two votes in these blocks that together are an offence. -/
def Guilty (off : AttData → AttData → Prop) (bs : List Block) (v : Nat) : Prop :=
  ∃ d d', Casts bs v d ∧ Casts bs v d' ∧ off d d'

/-- At least one third of the `n` validators satisfy `V` (distinct validators). -/
def OneThird (V : Nat → Prop) (n : Nat) : Prop :=
  ∃ vs : List Nat, vs.Nodup ∧ (∀ v ∈ vs, v < n ∧ V v) ∧ n ≤ 3 * vs.length

/-- The checkpoint is a block of this chain (or its genesis). -/
def OnChain (H : Hash) (g : State) (bs : List Block) (c : Checkpoint) : Prop :=
  rootAt H g bs c.slot = c.root

/-- No two different blocks of the chains share a root, and none has the genesis root or the zero
root. -/
structure NoCollision (H : Hash) (g : State) (bs : List Block) : Prop where
  inj : ∀ b ∈ bs, ∀ b' ∈ bs, b.root H = b'.root H → b = b'
  notGenesis : ∀ b ∈ bs, b.root H ≠ H.header (genesisHeader H g)
  notZero : ∀ b ∈ bs, b.root H ≠ 0
  genesisNotZero : H.header (genesisHeader H g) ≠ 0

/-- Two valid chains from the same genesis finalize checkpoints neither of which is on the other
chain. (The state before the first block carries a placeholder instead of a finalized root, so
both chains have a block.) -/
structure Conflict (H : Hash) (t : Nat) (vals : List Validator) (bs₁ bs₂ : List Block)
    (s₁ s₂ : State) : Prop where
  chain₁ : Chain H (State.fromGenesis H t vals) bs₁ s₁
  chain₂ : Chain H (State.fromGenesis H t vals) bs₂ s₂
  ne₁ : bs₁ ≠ []
  ne₂ : bs₂ ≠ []
  ok : NoCollision H (State.fromGenesis H t vals) (bs₁ ++ bs₂)
  off₁ : ¬ OnChain H (State.fromGenesis H t vals) bs₂ s₁.latestFinalized
  off₂ : ¬ OnChain H (State.fromGenesis H t vals) bs₁ s₂.latestFinalized

/-- Two thirds of the validators voted for a link from `c` to the same target `T`. -/
def StrongLink (bs : List Block) (n : Nat) (c T : Checkpoint) : Prop :=
  SuperMaj (fun v => ∃ d, Casts bs v d ∧ d.source = c ∧ d.target = T) n

/-- `c` was finalized on `bs` as the protocol intends, seen from another chain `bs'`: two thirds
voted for a link from `c` to one later block of `bs`, and no block of `bs'` at a slot strictly
between the two collected two thirds of the votes. -/
def SolidFinality (H : Hash) (g : State) (n : Nat) (bs bs' : List Block) (c : Checkpoint) : Prop :=
  ∃ T : Checkpoint, c.slot < T.slot ∧ T.root ≠ 0 ∧ OnChain H g bs T ∧ StrongLink bs n c T ∧
    ∀ x, OnChain H g bs' x → c.slot < x.slot → x.slot < T.slot →
      ¬ SuperMaj (fun v => ∃ d, Casts bs' v d ∧ d.target = x) n

/-- The claim: conflicting finalized checkpoints cost at least a third of the validators an
offence visible in the blocks. -/
def AccountableSafety (off : AttData → AttData → Prop) : Prop :=
  ∀ (H : Hash) (t : Nat) (vals : List Validator) (bs₁ bs₂ : List Block) (s₁ s₂ : State),
    (∀ s, H.state s ≠ 0) → Conflict H t vals bs₁ bs₂ s₁ s₂ →
    OneThird (Guilty off (bs₁ ++ bs₂)) vals.length

/-- The same claim for chains whose finalized checkpoints do have a two-thirds link to a later
block of their chain. -/
def AccountableSafetyStrong (off : AttData → AttData → Prop) : Prop :=
  ∀ (H : Hash) (t : Nat) (vals : List Validator) (bs₁ bs₂ : List Block) (s₁ s₂ : State),
    (∀ s, H.state s ≠ 0) → Conflict H t vals bs₁ bs₂ s₁ s₂ →
    (∃ T, T.root ≠ 0 ∧ OnChain H (State.fromGenesis H t vals) bs₁ T ∧
      StrongLink bs₁ vals.length s₁.latestFinalized T) →
    (∃ T, T.root ≠ 0 ∧ OnChain H (State.fromGenesis H t vals) bs₂ T ∧
      StrongLink bs₂ vals.length s₂.latestFinalized T) →
    OneThird (Guilty off (bs₁ ++ bs₂)) vals.length

end Verif
