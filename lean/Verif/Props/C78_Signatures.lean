import Mathlib.Logic.Equiv.List
import Verif.Spec.Signatures
import Verif.Spec.StoreWitness
/-!
# C78: what an accepted block proof proves
-/
namespace Verif.Node
open Verif Verif.Db Verif.Buffers

theorem attestationKeys_iff {X : Crypto} {vals : List Validator} {l ks : List Nat} :
    attestationKeys X vals l = .ok ks ↔ List.Forall₂ (fun v k => ∃ val, vals[v]? = some val ∧
      X.decodeKey val.attestationPubkey = some k) l ks := by
  induction l generalizing ks with
  | nil =>
    unfold attestationKeys
    constructor
    · intro h; cases h; exact .nil
    · intro h; cases h; rfl
  | cons v l ih =>
    unfold attestationKeys
    constructor
    · intro h
      split at h
      · cases h
      next val hv =>
        split at h
        · cases h
        next k hk =>
          split at h
          · cases h
          next ks' hks => cases h; exact .cons ⟨val, hv, hk⟩ (ih.1 hks)
    · intro h
      cases h with
      | cons h1 h2 =>
        obtain ⟨val, hv, hk⟩ := h1
        rw [hv]; simp only; rw [hk]; simp only; rw [ih.2 h2]

theorem components_iff {X : Crypto} {H : Hash} {vals : List Validator} {l : List AggAtt}
    {kss : List (List Nat)} {bs : List (Root × Nat)} :
    attestationComponents X H vals l = .ok (kss, bs) ↔
      List.Forall₂ (VoteKeys X vals) l kss ∧ (∀ a ∈ l, a.data.slot < 2 ^ 32) ∧
      bs = l.map (fun a => (H.attData a.data, a.data.slot)) := by
  induction l generalizing kss bs with
  | nil =>
    unfold attestationComponents
    constructor
    · intro h; cases h; exact ⟨.nil, by simp, rfl⟩
    · rintro ⟨h, -, rfl⟩; cases h; rfl
  | cons a l ih =>
    unfold attestationComponents toU32
    constructor
    · intro h
      split at h
      · cases h
      next ks hks =>
        by_cases hs : a.data.slot < 2 ^ 32
        · rw [if_pos hs] at h
          simp only at h
          split at h
          · cases h
          next kss' bs' hc =>
            cases h
            obtain ⟨i1, i2, i3⟩ := ih.1 hc
            refine ⟨.cons (attestationKeys_iff.1 hks) i1, ?_, by rw [i3]; rfl⟩
            intro x hx
            rcases List.mem_cons.1 hx with rfl | hx
            · exact hs
            · exact i2 x hx
        · rw [if_neg hs] at h; cases h
    · rintro ⟨h, hs, rfl⟩
      cases h with
      | cons h1 h2 =>
        have e1 : attestationKeys X vals (validatorIndices a.bits) = .ok _ :=
          attestationKeys_iff.2 h1
        rw [e1, if_pos (hs a List.mem_cons_self)]
        simp only
        rw [ih.2 ⟨h2, fun x hx => hs x (List.mem_cons_of_mem _ hx), rfl⟩]
        rfl

theorem boundsCheck_of {n : Nat} {l : List AggAtt}
    (h : ∀ a ∈ l, ∀ v ∈ validatorIndices a.bits, v < n) : boundsCheck n l = .ok () := by
  induction l with
  | nil => rfl
  | cons a l ih =>
    unfold boundsCheck
    have : (validatorIndices a.bits).find? (fun v => decide (v ≥ n)) = none := by
      rw [List.find?_eq_none]
      intro v hv
      have := h a List.mem_cons_self v hv
      simp; omega
    rw [this]
    exact ih (fun x hx => h x (List.mem_cons_of_mem _ hx))

theorem bindingsMatch_iff {es is : List (Root × Nat)} (h : is.length = es.length) :
    bindingsMatch es is = true ↔ is = es := by
  induction es generalizing is with
  | nil => cases is with
    | nil => simp [bindingsMatch]
    | cons i is => simp at h
  | cons e es ih => cases is with
    | nil => simp at h
    | cons i is =>
      unfold bindingsMatch
      by_cases hb : i.1 ≠ e.1 ∨ i.2 ≠ e.2
      · rw [if_pos hb]
        constructor
        · intro h; cases h
        · intro h; cases h; simp at hb
      · rw [if_neg hb]
        simp only [ne_eq, not_or, not_not] at hb
        rw [ih (by simpa using h)]
        constructor
        · rintro rfl; rw [Prod.ext hb.1 hb.2]
        · intro h; cases h; rfl

theorem verifyType2_iff {X : Crypto} {p : Nat} {kss : List (List Nat)} {bs : List (Root × Nat)} :
    verifyType2 X p kss bs = .ok () ↔
      bs.length = kss.length ∧ X.info2 p kss = some bs ∧ X.check2 p kss = true := by
  unfold verifyType2
  by_cases hl : bs.length = kss.length
  · rw [if_neg (not_not.2 hl)]
    cases hi : X.info2 p kss with
    | none => simp
    | some info =>
      simp only
      by_cases hn : info.length = bs.length
      · rw [if_neg (not_not.2 hn)]
        by_cases hb : bindingsMatch bs info = true
        · rw [if_neg (not_not.2 hb)]
          have := (bindingsMatch_iff hn).1 hb
          subst this
          by_cases hc : X.check2 p kss = true <;> simp [hc, hl]
        · rw [if_pos hb]
          rw [bindingsMatch_iff hn] at hb
          simp [hb]
      · rw [if_pos hn]
        constructor
        · intro h; cases h
        · rintro ⟨-, h, -⟩
          cases h
          exact absurd rfl hn
  · rw [if_pos hl]; simp [hl]

theorem Forall2.mem_left {α β : Type} {R : α → β → Prop} {l : List α} {m : List β}
    (h : List.Forall₂ R l m) {a : α} (ha : a ∈ l) :
    ∃ (i : Nat) (b : β), l[i]? = some a ∧ m[i]? = some b ∧ R a b := by
  induction h with
  | nil => cases ha
  | cons h1 h2 ih =>
    rcases List.mem_cons.1 ha with rfl | ha
    · exact ⟨0, _, rfl, rfl, h1⟩
    · obtain ⟨i, b, e1, e2, e3⟩ := ih ha
      exact ⟨i + 1, b, by simpa using e1, by simpa using e2, e3⟩

theorem mem_setBits {bits : Bits} {v : Nat} :
    v ∈ (List.range bits.length).filter (fun v => bits[v]? == some true) ↔
      bits[v]? = some true := by
  simp only [List.mem_filter, List.mem_range, beq_iff_eq, and_iff_right_iff_imp]
  intro h
  by_contra hn
  rw [List.getElem?_eq_none (by omega)] at h
  cases h

/-- **C78.** The block check accepts exactly the blocks whose proof is a valid proof that each
participant of each attestation signed that attestation's data for its slot, and that the proposer
signed the block root for the block's slot; all slots must fit 32 bits. Every index is in range and
every key decodes, since `ProofOf` names them. -/
theorem C78_accepts_iff (X : Crypto) (H : Hash) (st : State) (sb : SignedBlock) :
    verifyBlockSignatures X H st sb = .ok () ↔
      ProofOf X H st.validators sb ∧ sb.block.slot < 2 ^ 32 ∧
        ∀ a ∈ sb.block.body, a.data.slot < 2 ^ 32 := by
  unfold verifyBlockSignatures
  simp only
  constructor
  · intro h
    split at h
    · cases h
    split at h
    · cases h
    split at h
    · cases h
    next kss bs hc =>
      obtain ⟨c1, c2, c3⟩ := components_iff.1 hc
      split at h
      · cases h
      next val hv =>
        split at h
        · cases h
        next k hk =>
          unfold toU32 at h
          by_cases hs : sb.block.slot < 2 ^ 32
          · rw [if_pos hs] at h
            simp only at h
            obtain ⟨-, v2, v3⟩ := verifyType2_iff.1 h
            exact ⟨⟨kss, val, k, c1, hv, hk, by rw [v2, c3], v3⟩, hs, c2⟩
          · rw [if_neg hs] at h; cases h
  · rintro ⟨⟨kss, val, k, c1, hv, hk, v2, v3⟩, hs, c2⟩
    have hb : boundsCheck st.validators.length sb.block.body = .ok () := by
      refine boundsCheck_of fun a ha v hvm => ?_
      obtain ⟨i, ks, -, -, hks⟩ := Forall2.mem_left c1 ha
      obtain ⟨j, k', -, -, val', hval, -⟩ := Forall2.mem_left hks hvm
      by_contra hn
      rw [List.getElem?_eq_none (by omega)] at hval
      cases hval
    have hp : sb.block.proposerIndex < st.validators.length := by
      by_contra hn
      rw [List.getElem?_eq_none (by omega)] at hv
      cases hv
    rw [hb]
    simp only
    rw [if_neg (by omega), components_iff.2 ⟨c1, c2, rfl⟩]
    simp only
    rw [hv]
    simp only
    rw [hk]
    simp only
    unfold toU32
    rw [if_pos hs]
    simp only
    refine verifyType2_iff.2 ⟨?_, v2, v3⟩
    have := c1.length_eq
    simp [this]

/-- **C78.** If the primitives are unforgeable, an accepted block was signed by its proposer, and
every vote in it was signed by the validator it is counted for. -/
theorem C78_signed {X : Crypto} {Signs : Nat → Root → Nat → Prop} (hX : Sound X Signs) {H : Hash}
    {st : State} {sb : SignedBlock} (h : verifyBlockSignatures X H st sb = .ok ()) :
    SignedProposal X H Signs st.validators sb.block ∧
    ∀ a ∈ sb.block.body, ∀ v, a.bits[v]? = some true →
      SignedVote X H Signs st.validators v a.data := by
  obtain ⟨⟨kss, val, k, c1, hv, hk, v2, v3⟩, -, -⟩ := (C78_accepts_iff X H st sb).1 h
  have hlen := c1.length_eq
  have M := hX.multi sb.proof _ _ v2 v3
  constructor
  · refine ⟨val, hv, k, hk, ?_⟩
    refine M sb.block.body.length [k] (sb.block.root H, sb.block.slot) ?_ ?_ k List.mem_cons_self
    · rw [hlen]; simp
    · simp
  · intro a ha v hav
    obtain ⟨i, ks, e1, e2, hks⟩ := Forall2.mem_left c1 ha
    obtain ⟨j, k', -, e3, val', hval, hk'⟩ := Forall2.mem_left hks (mem_setBits.2 hav)
    refine ⟨val', hval, k', hk', ?_⟩
    have hi : i < sb.block.body.length := by
      by_contra hn
      rw [List.getElem?_eq_none (by omega)] at e1
      cases e1
    refine M i ks (H.attData a.data, a.data.slot) ?_ ?_ k' (List.mem_of_getElem? e3)
    · rw [List.getElem?_append_left (by omega)]; exact e2
    · rw [List.getElem?_append_left (by simpa using hi)]; simp [e1]

theorem decodeAll_iff {X : Crypto} {bs ks : List Nat} :
    decodeAll X bs = some ks ↔ List.Forall₂ (fun b k => X.decodeKey b = some k) bs ks := by
  induction bs generalizing ks with
  | nil =>
    unfold decodeAll
    constructor
    · intro h; cases h; exact .nil
    · intro h; cases h; rfl
  | cons b bs ih =>
    unfold decodeAll
    constructor
    · intro h
      split at h
      · cases h
      next k hk =>
        split at h
        · cases h
        next ks' hks => cases h; exact .cons hk (ih.1 hks)
    · intro h
      cases h with
      | cons h1 h2 => rw [h1]; simp only; rw [ih.2 h2]

/-- **C78.** A gossiped vote the store accepts was signed by the validator it names. -/
theorem C78_vote_signed {X : Crypto} {Signs : Nat → Root → Nat → Prop} (hX : Sound X Signs)
    {H : Hash} {s s' : Store} {v : Nat} {d : AttData} {sig : Nat} {agg : Bool}
    (h : onGossipAttestation (envOf X H) s v d sig agg = .ok (s', .ok ())) :
    ∃ st m, Db.getState s.mem d.target.root = .ok (some st, m) ∧
      SignedVote X H Signs st.validators v d := by
  unfold onGossipAttestation at h
  split at h
  · cases h
  · cases h
  unfold Store.getState at h
  cases hg : Db.getState s.mem d.target.root with
  | error e => rw [hg] at h; cases h
  | ok x =>
    obtain ⟨st, m⟩ := x
    rw [hg] at h
    cases st with
    | none => cases h
    | some st =>
      simp only at h
      refine ⟨st, m, rfl, ?_⟩
      split at h
      · cases h
      next val hv =>
        split at h
        · cases h
        split at h
        · cases h
        next hs =>
          rw [not_not] at hs
          simp only [envOf] at hs
          refine ⟨val, hv, ?_⟩
          split at hs
          next k sg hk hsg =>
            rw [Bool.and_eq_true] at hs
            exact ⟨k, hk, hX.one _ _ _ _ hs.2⟩
          · cases hs

/-- **C78.** A gossiped aggregate the store accepts names at least one validator and was signed by
each validator it names. -/
theorem C78_aggregate_signed {X : Crypto} {Signs : Nat → Root → Nat → Prop} (hX : Sound X Signs)
    {H : Hash} {s s' : Store} {d : AttData} {a : Agg}
    (h : onGossipAggregate (envOf X H) s d a = .ok (s', .ok ())) :
    ∃ st m, Db.getState s.mem d.target.root = .ok (some st, m) ∧
      (∃ v : Nat, a.participants[v]? = some true) ∧
      ∀ v : Nat, a.participants[v]? = some true → SignedVote X H Signs st.validators v d := by
  unfold onGossipAggregate at h
  split at h
  · cases h
  · cases h
  unfold Store.getState at h
  cases hg : Db.getState s.mem d.target.root with
  | error e => rw [hg] at h; cases h
  | ok x =>
    obtain ⟨st, m⟩ := x
    rw [hg] at h
    cases st with
    | none => cases h
    | some st =>
      simp only at h
      refine ⟨st, m, rfl, ?_⟩
      split at h
      · cases h
      next hne =>
        split at h
        · cases h
        next hall =>
          rw [not_not] at hall
          split at h
          · cases h
          split at h
          · cases h
          next hs =>
            rw [not_not] at hs
            constructor
            · cases hl : validatorIndices a.participants with
              | nil => rw [hl] at hne; exact absurd rfl hne
              | cons v l =>
                exact ⟨v, mem_setBits.1 (by
                  show v ∈ validatorIndices a.participants
                  rw [hl]; exact List.mem_cons_self)⟩
            · intro v hv
              have hm : v ∈ validatorIndices a.participants := mem_setBits.2 hv
              have hlt : v < st.validators.length := by
                simpa using List.all_eq_true.1 hall v hm
              refine ⟨st.validators[v], List.getElem?_eq_getElem hlt, ?_⟩
              simp only [envOf] at hs
              split at hs
              next ks hks =>
                rw [Bool.and_eq_true] at hs
                have hks := decodeAll_iff.1 hks
                have hget : (st.validators.getD v default).attestationPubkey =
                    st.validators[v].attestationPubkey := by
                  simp [List.getD, List.getElem?_eq_getElem hlt]
                obtain ⟨i, k, -, e2, e3⟩ := Forall2.mem_left hks
                  (List.mem_map_of_mem (f := fun v =>
                    (st.validators.getD v default).attestationPubkey) hm)
                rw [hget] at e3
                refine ⟨k, e3, ?_⟩
                have hs := hs.2
                unfold verifyType1 at hs
                split at hs
                · cases hs
                next m' s' hi =>
                  split at hs
                  · cases hs
                  next hb =>
                    simp only [ne_eq, not_or, not_not] at hb
                    split at hs
                    next hc =>
                      rw [hb.1, hb.2] at hi
                      exact hX.single _ _ _ _ hi hc k (List.mem_of_getElem? e2)
                    · cases hs
              · cases hs

/-! ## Concrete cases -/

namespace Witness
open Verif.Witness

/-- The bindings of a toy proof for one message. -/
def wInfo1 (p : Nat) : Root × Nat :=
  if p < 2000000 then (p % 1000000 / 1000, p % 1000) else Nat.unpair (p - 2000000)

/-- The toy proof for one message. -/
def wMake1 (m : Root) (s : Nat) : Nat :=
  if s < 1000 ∧ Nat.blt m 1000 = true then m * 1000 + s else 2000000 + Nat.pair m s

/-- The bindings of the toy proofs of blocks: `p` is the slot of a block of `forkEvs`. Proofs from 100
to 999 decode like those below 100 but are invalid; those above are for all other blocks. -/
def wInfo (p : Nat) : Option (List (Root × Nat)) :=
  if p < 1000 then
    match p % 100 with
    | 1 => some [(2, 1)]
    | 2 => some [(1, 1), (3, 2)]
    | 3 => some [(4, 3)]
    | 4 => some [(2, 2), (5, 4)]
    | _ => none
  else Encodable.decode (α := List (Nat × Nat)) (p - 1000)

/-- The toy proof of a block. -/
def wMake (l : List (Root × Nat)) : Nat :=
  match (List.range 5).find? (fun p => decide (wInfo p = some l)) with
  | some p => p
  | none => 1000 + Encodable.encode (α := List (Nat × Nat)) l

/-- The holders of keys 1, 2 and 3 sign whatever the toy proofs bind; no other key signs. -/
def wSigns (k : Nat) (_ : Root) (_ : Nat) : Prop := k ≤ 3

/-- A toy scheme: key bytes 0 do not decode; a proof over any key above 3 is invalid. Aggregates are
`1000 m + s` for small `m` and `s`, plus a million if invalid; the provers refuse invalid inputs. -/
def wX : Crypto where
  decodeKey b := if b = 0 then none else some b
  decodeSig b := some b
  xmss k s _ sig := decide (k ≤ 3 ∧ s = sig)
  info1 p _ := some (wInfo1 p)
  check1 p ks := decide (p < 1000000 ∨ 2000000 ≤ p) && ks.all (fun k => decide (k ≤ 3))
  info2 p _ := wInfo p
  check2 p kss := decide (p < 100 ∨ 1000 ≤ p) &&
    kss.all (fun ks => ks.all (fun k => decide (k ≤ 3)))
  prove1 l _ m s := if l.all (fun x => decide (x.2 < 1000000 ∨ 2000000 ≤ x.2)) then
    some (wMake1 m s) else none
  prove2 l := if l.all (fun x => decide (x.2 < 1000000 ∨ 2000000 ≤ x.2)) then
    some (wMake (l.map (fun x => wInfo1 x.2))) else none
  split p _ i := match wInfo p with
    | none => none
    | some info => info[i]?.map (fun b => wMake1 b.1 b.2 +
        if p < 100 ∨ 1000 ≤ p then 0 else 1000000)

theorem wX_sound : Sound wX wSigns where
  one k s m sig h := by
    simp only [wX, decide_eq_true_eq] at h
    exact h.1
  single p ks m s _ h k hk := by
    show k ≤ 3
    simpa using List.all_eq_true.1 (Bool.and_eq_true_iff.1 h).2 k hk
  multi p kss info _ h i ks b hi _ k hk := by
    have := List.all_eq_true.1 (Bool.and_eq_true_iff.1 h).2 ks (List.mem_of_getElem? hi)
    show k ≤ 3
    simpa using List.all_eq_true.1 this k hk

/-- Non-vacuity: under the toy scheme, the block with all three votes is accepted, and it is refused
if its proof is that of another block or if a voter's key is not among the signers. -/
example : Sound wX wSigns ∧
    verifyBlockSignatures wX wH wState2 (sgn (mkBlock 4 3 [vote [true, true, true] 1 2])) = .ok () ∧
    verifyBlockSignatures wX wH wState2
      { sgn (mkBlock 4 3 [vote [true, true, true] 1 2]) with proof := 3 } = .error .count ∧
    verifyBlockSignatures wX wH { wState2 with validators := [⟨1, 1, 0⟩, ⟨2, 2, 1⟩, ⟨7, 3, 2⟩] }
      (sgn (mkBlock 4 3 [vote [true, true, true] 1 2])) = .error .proof :=
  ⟨wX_sound, by decide +kernel, by decide +kernel, by decide +kernel⟩

/-- Non-vacuity: after `forkEvs`, a vote and an aggregate for block 4 with good signatures are
accepted. -/
example :
    (onGossipAttestation (envOf wX wH) (after forkEvs) 2 (vote [] 2 4).data 4 true).toOption.map
      Prod.snd = some (.ok ()) ∧
    (onGossipAggregate (envOf wX wH) (after forkEvs) (vote [] 2 4).data
      ⟨[true, false, true], 4004⟩).toOption.map Prod.snd = some (.ok ()) ∧
    (onGossipAggregate (envOf wX wH) (after forkEvs) (vote [] 2 4).data
      ⟨[true, false, true], 4003⟩).toOption.map Prod.snd = some (.error .badSignature) := by
  decide +kernel

end Witness

end Verif.Node
