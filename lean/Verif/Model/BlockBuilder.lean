import Verif.Model.Greedy
import Verif.Model.StateTransition
import Mathlib.Data.List.Dedup
/-!
# The block builder

`crates/blockchain/src/block_builder.rs` 85-784. Hash sets are duplicate-free lists, hash maps are
association lists in arbitrary order. Metrics and tracing are not modelled. The recursive proof
aggregation of `compact_attestations` is a parameter that may fail.
-/
namespace Verif.Build
open Verif Verif.Buffers

/-- `Tier` (507-518), by its discriminant. -/
inductive Tier
  | finalize | justify | build
  deriving DecidableEq, Repr

def Tier.num : Tier → Nat
  | .finalize => 1 | .justify => 2 | .build => 3

/-- `EntryScore` (538-545). -/
structure Score where
  tier : Tier
  newVoters : Nat
  targetSlot : Nat
  attSlot : Nat
  deriving DecidableEq, Repr

/-- `OrderingKey` (550). The three middle components are compared in reverse. -/
abbrev Key := Nat × Nat × Nat × Nat × Root

/-- `ordering_key` (556-576). -/
def Score.key (s : Score) (r : Root) : Key :=
  match s.tier with
  | .build => (s.tier.num, s.newVoters, s.targetSlot, s.attSlot, r)
  | _ => (s.tier.num, s.targetSlot, s.attSlot, s.newVoters, r)

/-- `<` on `OrderingKey`: lexicographic, the middle components reversed. -/
def Key.lt (a b : Key) : Bool :=
  decide (a.1 < b.1 ∨ a.1 = b.1 ∧
    (b.2.1 < a.2.1 ∨ a.2.1 = b.2.1 ∧
      (b.2.2.1 < a.2.2.1 ∨ a.2.2.1 = b.2.2.1 ∧
        (b.2.2.2.1 < a.2.2.2.1 ∨ a.2.2.2.1 = b.2.2.2.1 ∧ Nat.blt a.2.2.2.2 b.2.2.2.2 = true))))

/-- `ProjectedState` (315-319). -/
structure Projected where
  justifiedSlots : List Bool
  finalizedSlot : Nat
  votes : AMap Root (List Nat)

/-- `build_running_votes` (584-597). -/
def runningVotes (s : State) : AMap Root (List Nat) :=
  (List.range s.justificationsRoots.length).foldl (fun m i =>
    match s.justificationsRoots[i]? with
    | none => m
    | some r => m.insert r ((List.range s.validators.length).filter (fun j =>
        s.justificationsValidators[i * s.validators.length + j]? == some true))) []

/-- `from_head_state` (325-331). -/
def Projected.ofState (s : State) : Projected :=
  ⟨s.justifiedSlots, s.latestFinalized.slot, runningVotes s⟩

/-- `is_genesis_self_vote` (871-873). -/
def genesisSelfVote (d : AttData) : Bool := decide (d.source.slot = 0 ∧ d.target.slot = 0)

/-- `advance` (338-375). `none` is a panic in `extend_to_slot` or `set_justified`. -/
def Projected.advance (p : Projected) (tier : Tier) (d : AttData) (newVoters : List Nat) :
    Option Projected :=
  let r := d.target.root
  let old := (p.votes.get? r).getD []
  let votes := p.votes.insert r (old ++ newVoters.filter (fun v => v ∉ old))
  if tier = .build then some { p with votes := votes }
  else
    (JustifiedSlots.extendToSlot p.justifiedSlots p.finalizedSlot d.target.slot).bind fun js =>
    (JustifiedSlots.setJustified js p.finalizedSlot d.target.slot).map fun js =>
      let p := { p with votes := votes.erase r, justifiedSlots := js }
      if tier = .finalize then
        { p with
          justifiedSlots := JustifiedSlots.shiftWindow p.justifiedSlots
            (d.source.slot - p.finalizedSlot)
          finalizedSlot := d.source.slot }
      else p

/-- `score_entry` (394-439). -/
def Projected.score (p : Projected) (d : AttData) (coverage : List Nat) (n : Nat) :
    Option (Score × List Nat) :=
  let prior := (p.votes.get? d.target.root).getD []
  let new := coverage.filter (fun v => v ∉ prior)
  if new.isEmpty then none
  else
    let crosses := decide (3 * (prior.length + new.length) ≥ 2 * n)
    let finalizes := crosses && decide (d.source.slot > p.finalizedSlot) &&
      (List.range' (d.source.slot + 1) (d.target.slot - (d.source.slot + 1))).all
        (fun k => !slotIsJustifiableAfter k p.finalizedSlot)
    let tier := if genesisSelfVote d || !crosses then Tier.build
      else if finalizes then .finalize else .justify
    some (⟨tier, new.length, d.target.slot, d.slot⟩, new)

/-- `entry_passes_filters` (454-500). -/
def Projected.passes (p : Projected) (d : AttData) (known : List Root) (hist : List Root) : Bool :=
  if d.head.root ∉ known then false
  else if ¬ (JustifiedSlots.isSlotJustified p.justifiedSlots p.finalizedSlot d.source.slot).getD
      false then false
  else if ¬ attestationDataMatchesChain hist d then false
  else if ¬ genesisSelfVote d ∧ d.target.slot ≤ d.source.slot then false
  else if ¬ genesisSelfVote d ∧
      (JustifiedSlots.isSlotJustified p.justifiedSlots p.finalizedSlot d.target.slot).getD false then
    false
  else if ¬ genesisSelfVote d ∧ ¬ slotIsJustifiableAfter d.target.slot p.finalizedSlot then false
  else true

/-- The known payloads: data root ↦ data and proofs. -/
abbrev Pool := AMap Root (AttData × List Agg)

/-- The participants of all proofs of an entry, as a set (271-274). -/
def coverage (proofs : List Agg) : List Nat := (proofs.flatMap Agg.ids).dedup

/-- The score of one pool entry in one round: `none` if it is skipped (256-281). -/
def candidate (hist known : List Root) (n : Nat) (done : List Root) (p : Projected)
    (e : Root × AttData × List Agg) : Option (Score × List Nat) :=
  if e.1 ∈ done then none
  else if ¬ p.passes e.2.1 known hist then none
  else p.score e.2.1 (coverage e.2.2) n

/-- `pick_best_candidate` (253-293). -/
def pickBest (hist known : List Root) (n : Nat) (done : List Root) (p : Projected) (pool : Pool) :
    Option (Root × Score × List Nat) :=
  pool.foldl (fun best e =>
    match candidate hist known n done p e with
    | none => best
    | some (sc, new) =>
      match best with
      | none => some (e.1, sc, new)
      | some b => if Key.lt (sc.key e.1) (b.2.1.key b.1) then some (e.1, sc, new) else best) none

/-- A selected entry: attestation with its proof. -/
abbrev Entry := AggAtt × Agg

/-- The round loop of `select_attestations` (212-240). `none` is a panic. `ord r` is the
enumeration order of the index set while entry `r` is being packed. -/
def selectRounds (hist known : List Root) (n : Nat) (ord : Root → List Nat → List Nat)
    (pool : Pool) : Nat → List Root → Projected → List Entry → Option (List Entry)
  | 0, _, _, sel => some sel
  | k + 1, done, p, sel =>
    match pickBest hist known n done p pool with
    | none => some sel
    | some (r, sc, new) =>
      match pool.get? r with
      | none => none
      | some (d, proofs) =>
        (p.advance sc.tier d new).bind fun p' =>
          selectRounds hist known n ord pool k (r :: done) p'
            (sel ++ (extendGreedily proofs (ord r)).map
              (fun a => (({ bits := a.participants, data := d } : AggAtt), a)))

/-- The chain view (188-194). -/
def extendedHist (s : State) (slot : Nat) (parentRoot : Root) : List Root :=
  s.historicalBlockHashes ++ [parentRoot] ++
    List.replicate (slot - s.latestBlockHeader.slot - 1) 0

/-- `select_attestations` (171-244). -/
def selectAttestations (s : State) (slot : Nat) (parentRoot : Root) (known : List Root)
    (ord : Root → List Nat → List Nat) (pool : Pool) (maxAtts : Nat) : Option (List Entry) :=
  if pool.isEmpty then some []
  else selectRounds (extendedHist s slot parentRoot) known s.validators.length ord pool
    (min maxAtts maxAttestationsData) [] (Projected.ofState s) []

/-- The distinct data in order of first occurrence (611-624): the `order` vector. -/
def dataOrder : List Entry → List AttData
  | [] => []
  | e :: es => e.1.data :: (dataOrder es).filter (fun d => d ≠ e.1.data)

/-- The entries of one group, in order. -/
def group (es : List Entry) (d : AttData) : List Entry := es.filter (fun e => e.1.data = d)

/-- One group of `compact_attestations` (644-695). `merge` is key lookup and `aggregate_proofs`;
`none` stands for its errors. The `u32` conversion of 683 panics from slot `2^32` on, outside the
chain's slot limit, and is not modelled. -/
def compactGroup (merge : AttData → List Agg → Option Nat) (es : List Entry) (d : AttData) :
    Option Entry :=
  match group es d with
  | [] => none
  | [e] => some e
  | e :: rest =>
    let bits := rest.foldl (fun acc x => unionBits acc x.1.bits) e.1.bits
    (merge d ((e :: rest).map Prod.snd)).map
      (fun pr => (({ bits := bits, data := d } : AggAtt), ⟨bits, pr⟩))

/-- `Result` collection in order, stopping at the first failure. -/
def collect {α β : Type} (f : α → Option β) : List α → Option (List β)
  | [] => some []
  | a :: as => (f a).bind fun b => (collect f as).map fun bs => b :: bs

/-- `compact_attestations` (605-700). -/
def compact (merge : AttData → List Agg → Option Nat) (es : List Entry) : Option (List Entry) :=
  if (dataOrder es).length = es.length then some es
  else collect (compactGroup merge es) (dataOrder es)

/-- The survivor of a group (746-757): most new voters, then most participants, then earliest. -/
def bestOf (seen : List Nat) : List Entry → Option Entry
  | [] => none
  | e :: es => some (es.foldl (fun best x =>
      let m := fun (y : Entry) => (newIds seen y.2).length
      if m x > m best ∨ m x = m best ∧ x.1.bits.count true > best.1.bits.count true then x
      else best) e)

/-- The loop of `keep_best_proof_per_data` (741-774). `claimed` starts empty. -/
def keepLoop (votes : AMap Root (List Nat)) (es : List Entry) :
    List AttData → AMap Root (List Nat) → List Entry
  | [], _ => []
  | d :: ds, claimed =>
    let r := d.target.root
    let seen := (votes.get? r).getD [] ++ (claimed.get? r).getD []
    match bestOf seen (group es d) with
    | none => []
    | some e =>
      e :: keepLoop votes es ds (claimed.insert r ((claimed.get? r).getD [] ++ Agg.ids e.2))

/-- `keep_best_proof_per_data` (712-784). -/
def keepBest (votes : AMap Root (List Nat)) (es : List Entry) : List Entry :=
  if (dataOrder es).length = es.length then es
  else keepLoop votes es (dataOrder es) []

/-- Why building failed. -/
inductive BuildError
  | stf (e : StfError)
  | merge
  | panic
  deriving DecidableEq, Repr

/-- `ProposerConfig` (49-59). -/
structure Config where
  aggregate : Bool
  maxAtts : Nat

/-- `build_block` (85-158): the block, its proofs and the post state (whose two checkpoints are
returned). -/
def buildBlock (H : Hash) (merge : AttData → List Agg → Option Nat)
    (ord : Root → List Nat → List Nat) (s : State) (slot proposer : Nat) (parentRoot : Root)
    (known : List Root) (pool : Pool) (c : Config) :
    Except BuildError (Block × List Agg × State) :=
  match selectAttestations s slot parentRoot known ord pool c.maxAtts with
  | none => .error .panic
  | some sel =>
  match (if c.aggregate then compact merge sel else some (keepBest (runningVotes s) sel)) with
  | none => .error .merge
  | some es =>
  let b : Block := { slot := slot, proposerIndex := proposer, parentRoot := parentRoot,
                     stateRoot := 0, body := es.map Prod.fst }
  match processSlots H s slot with
  | .error e => .error (.stf e)
  | .ok s1 =>
  match processBlock H s1 b with
  | .error e => .error (.stf e)
  | .ok s2 => .ok ({ b with stateRoot := H.state s2 }, es.map Prod.snd, s2)

end Verif.Build
