import Verif.Lemmas.SoloTick
import Verif.Spec.Solo
/-!
# The votes of a node on a line that runs all validators
-/
namespace Verif.Node
open Verif Verif.Db Verif.Sync Verif.Buffers Verif.Build

/-- The vote of slot `s` on the line. -/
def lineVote (f : Nat → Root) (s : Nat) : AttData :=
  { slot := s, head := ⟨f s, s⟩, target := ⟨f (s - 1), s - 1⟩, source := ⟨f (s - 2), s - 2⟩ }

section
variable {E : Env} {t : Nat} {vals : List Validator} {K : Header → Prop} {root : Root}
  {anchor : State} {f : Nat → Root} {s : Nat} {top : State} {ops : List Db.Op} {σ : Store}

theorem Row.target (R : Row E t vals K root anchor f s top ops σ)
    (hs : σ.mem.db.safeTarget = f (s - 1)) :
    attestationTarget σ σ.mem.db.justified σ.mem.db.finalized = .ok ⟨f (s - 1), s - 1⟩ := by
  obtain ⟨hh, a1, a2⟩ := R.line.mem s (Nat.le_refl _)
  obtain ⟨sh, b1, b2⟩ := R.line.mem (s - 1) (by omega)
  have hw : walkToSafe σ.mem.db.headers (s - 1) lookback (f s) hh = .ok (f (s - 1), sh) := by
    cases s with
    | zero =>
      rw [a1] at b1
      cases b1
      unfold lookback walkToSafe
      rw [if_neg (by omega)]
    | succ s =>
      have hp := R.line.up s hh (by omega) a1
      simp only [Nat.add_sub_cancel] at b1 b2 ⊢
      unfold lookback walkToSafe
      rw [if_pos (by omega), hp, b1]
      simp only
      unfold walkToSafe
      rw [if_neg (by omega)]
  have hj : walkToJustifiable σ.mem.db.headers σ.mem.db.finalized.slot
      (σ.mem.db.headers.length + 1) (f (s - 1)) sh = .ok (f (s - 1), sh) := by
    unfold walkToJustifiable
    rw [if_neg]
    rw [b2, R.fin]
    rintro ⟨h1, h2⟩
    apply h2
    unfold slotIsJustifiableAfter
    rw [if_neg (by omega)]
    simp only [Bool.or_eq_true, decide_eq_true_eq]
    exact .inl (.inl (by omega))
  unfold attestationTarget Store.header
  rw [hs, R.head, a1, b1]
  simp only
  rw [b2, hw]
  simp only
  rw [hj]
  simp only
  rw [b2, if_neg (by rw [R.just]; omega)]

/-- The source of the votes. -/
theorem Row.source (W : World E t vals [] (State.fromGenesis E.H t vals) K)
    (R : Row E t vals K root anchor f s top ops σ) {st : State}
    (h : stateOf root anchor ops (f s) = some st) :
    (if st.latestJustified.root = 0 then { st.latestJustified with root := f s }
      else st.latestJustified) = ⟨f (s - 2), s - 2⟩ := by
  obtain ⟨t1, t2, t3, -⟩ := R.tip st h
  obtain ⟨z1, z2⟩ := genesis_head R.inv.run
  by_cases hq : f s = root
  · have hst : st = anchor := by
      rw [hq, R.inv.tree.anc] at h
      exact (Option.some.inj h).symm
    subst hst
    have h0 : s = 0 := by rw [← R.slot (Nat.le_refl _) h, z1]
    subst h0
    rw [z2]
    rfl
  · obtain ⟨cs, hne, hc⟩ := R.inv.tree.good _ _ h hq
    obtain ⟨c1, -, c3, -⟩ := C06_checkpoints_in_history W.headerNZ hc hne
    rw [if_neg c3]
    have hlt := (C05_checkpoints_ordered hc hne).2
    rw [R.slot (Nat.le_refl _) h, t1] at hlt
    rw [t1, t3 _ hlt] at c1
    cases hj : st.latestJustified with
    | mk r sl =>
      rw [hj] at t1 c1
      simp only at t1
      subst t1
      rw [Option.some.inj c1]

/-- The vote a node on a line produces. -/
theorem Row.produce (W : World E t vals [] (State.fromGenesis E.H t vals) K)
    (R : Row E t vals K root anchor f s top ops σ) (hs : σ.mem.db.safeTarget = f (s - 1)) :
    ∃ σ' ops', produceAttestationData σ s = .ok (lineVote f s, σ') ∧ σ'.mem.db = σ.mem.db ∧
      SameMem σ σ' ∧ Row E t vals K root anchor f s top ops' σ' := by
  obtain ⟨st, h1⟩ := R.states s (Nat.le_refl _)
  obtain ⟨σ', g1, g2, g3, R'⟩ := R.getState W (f s)
  rw [h1] at g1
  obtain ⟨hh, a1, a2⟩ := R.line.mem s (Nat.le_refl _)
  refine ⟨σ', _, ?_, g2, g3, R'⟩
  unfold produceAttestationData
  simp only
  rw [R.head, g1]
  simp only
  unfold Store.header
  rw [g2, a1]
  simp only
  have ht := R'.target (by rw [g2]; exact hs)
  rw [g2] at ht
  rw [ht, a2, R.source W h1]
  rfl

/-- The vote is valid for the node itself. -/
theorem Row.voteOk (W : World E t vals [] (State.fromGenesis E.H t vals) K)
    (R : Row E t vals K root anchor f s top ops σ) (ht : 5 * s ≤ σ.mem.db.time + 1) :
    validateData σ (lineVote f s) = .ok (.ok ()) := by
  obtain ⟨rank, hr⟩ := R.inv.rank W
  obtain ⟨sf, f1, f2⟩ := R.inv.cp.fin
  have hk : ∀ i, i ≤ s → KnownAt σ.mem.db.headers ⟨f i, i⟩ := fun i hi => by
    obtain ⟨h, h1, h2⟩ := R.line.mem i hi
    exact ⟨h, h1, h2⟩
  refine slotwise_accepted (rank := rank) hr ?_ ?_
  · exact ⟨_, (R.inv.tree.own _ _ f1).2, by rw [R.inv.tree.slotEq _ _ f1, f2]⟩
  · refine ⟨hk _ (by omega), hk _ (by omega), hk _ (Nat.le_refl _), ?_, ?_, ?_, Nat.le_refl _, ?_⟩
    · exact R.line.anc' (by omega) (by omega)
    · exact R.line.anc' (by omega) (by omega)
    · rw [(R.root_eq f1).2]
      exact R.line.anc' (R.root_eq f1).1 (Nat.le_refl _)
    · show s * 5 ≤ _
      omega
end

/-- The gossip buffer has valid signatures of exactly these validators for this vote, and nothing
else. -/
def Collected (X : Crypto) (H : Hash) (vals : List Validator) (d : AttData) (vs : List Nat)
    (b : GossipBuffer) : Prop :=
  (vs = [] ∧ b.data = []) ∨ vs ≠ [] ∧ ∃ sigs : BMap Nat, b.data = [(H.attData d, ⟨d, sigs⟩)] ∧
    (∀ v, v ∈ sigs.map Prod.fst ↔ v ∈ vs) ∧ ∀ x ∈ sigs, ValidSig X H vals x.1 d x.2

section
variable {c : VCtx} {t : Nat} {vals : List Validator} {K : Header → Prop} {root : Root}
  {anchor : State} {f : Nat → Root} {s : Nat} {top : State} {ops : List Db.Op} {σ : Store}

theorem mem_bmap_insert {k v : Nat} {m : BMap Nat} {x : Nat × Nat} (h : x ∈ BMap.insert k v m) :
    x = (k, v) ∨ x ∈ m := by
  induction m with
  | nil => simpa [BMap.insert] using h
  | cons y m ih =>
    obtain ⟨k', v'⟩ := y
    unfold BMap.insert at h
    split at h
    · rcases List.mem_cons.1 h with h | h
      · exact .inl h
      · exact .inr h
    · split at h
      · rcases List.mem_cons.1 h with h | h
        · exact .inl h
        · exact .inr (List.mem_cons_of_mem _ h)
      · rcases List.mem_cons.1 h with h | h
        · exact .inr (by rw [h]; exact List.mem_cons_self)
        · rcases ih h with h | h
          · exact .inl h
          · exact .inr (List.mem_cons_of_mem _ h)

/-- A vote for the line arrives; an aggregator keeps it. -/
theorem Row.takeVote
    (W : World c.ctx.E t vals [] (State.fromGenesis c.ctx.E.H t vals) K)
    (hs : s < 2 ^ 32) (agg : Bool) {done : List Nat} {v sig : Nat}
    (R : Row c.ctx.E t vals K root anchor f s top ops σ) (ht : 5 * s ≤ σ.mem.db.time + 1)
    (hsig : ValidSig c.X c.H vals v (lineVote f s) sig)
    (hcap : vals.length ≤ σ.gossip.capacity)
    (hc : Collected c.X c.H vals (lineVote f s) done σ.gossip) :
    ∃ σ' ops', onGossipAttestation c.ctx.E σ v (lineVote f s) sig agg = .ok (σ', .ok ()) ∧
      σ'.mem.db = σ.mem.db ∧ σ'.fc = σ.fc ∧ σ'.newP = σ.newP ∧ σ'.knownP = σ.knownP ∧
      σ'.genesisTime = σ.genesisTime ∧ σ'.gossip.capacity = σ.gossip.capacity ∧
      Row c.ctx.E t vals K root anchor f s top ops' σ' ∧
      Collected c.X c.H vals (lineVote f s) (if agg then done ++ [v] else done) σ'.gossip := by
  have hsig0 := hsig
  obtain ⟨val, k, sg, k1, k2, k3, k4⟩ := hsig
  obtain ⟨st, t1⟩ := R.states (s - 1) (by omega)
  obtain ⟨σ1, t2, t3, t4, R1⟩ := R.getState W (f (s - 1))
  rw [t1] at t2
  have hvl : st.validators = vals := state_vals W R.inv t1
  have hd : (lineVote f s).slot = s := rfl
  have hgo : ∀ {r : _root_.Verif.Node.R}, (if agg = true then
        match σ1.gossip.insert c.H (lineVote f s) v sig with
        | none => .error 445
        | some g => .ok ({ σ1 with gossip := g }, .ok ())
      else .ok (σ1, .ok ())) = r →
      onGossipAttestation c.ctx.E σ v (lineVote f s) sig agg = r := by
    rintro r rfl
    unfold onGossipAttestation
    rw [R.voteOk W ht]
    simp only
    show (match σ.getState (f (s - 1)) with | .error e => _ | .ok (none, s) => _ | .ok (some st, s) => _) = _
    rw [t2]
    simp only
    rw [hvl, k1]
    simp only [envOf, k2, k3, hd, Option.isSome_some, not_true_eq_false, if_false]
    rw [if_neg (by
      rw [hd] at k4
      rw [k4, decide_eq_true hs]
      simp)]
    rfl
  cases agg with
  | false =>
    refine ⟨σ1, _, hgo rfl, t3, t4.fc, t4.newP, t4.knownP, t4.genesis, by rw [t4.gossip], R1, ?_⟩
    rw [t4.gossip]
    exact hc
  | true =>
    have hvlt : v < vals.length := (List.getElem?_eq_some_iff.1 k1).1
    obtain ⟨b', b1, b2, b3, b4, b5⟩ : ∃ b', σ1.gossip.insert c.H (lineVote f s) v sig = some b' ∧
        GInv c.H b' ∧ b'.total ≤ b'.capacity ∧ b'.capacity = σ1.gossip.capacity ∧
        Collected c.X c.H vals (lineVote f s) (done ++ [v]) b' := by
      have hgi : GInv c.H σ1.gossip := R1.inv.buf.gossip
      rw [← t4.gossip] at hc hcap
      rcases hc with ⟨rfl, h2⟩ | ⟨-, sigs, h2, h3, h5⟩
      · obtain ⟨b', e1, e2, e3, e4, e5⟩ := ginsert_first hgi (by omega) (lineVote f s) v sig h2
        refine ⟨b', e1, e2, e3, e4, .inr ⟨by simp, _, e5, by simp, ?_⟩⟩
        intro x hx
        rw [List.mem_singleton] at hx
        subst hx
        exact hsig0
      · have hsort : (sigs.map Prod.fst).Pairwise (· < ·) :=
          (hgi.ok (c.H.attData (lineVote f s)) ⟨_, sigs⟩ (by
            rw [h2, AMap.get?_cons, if_pos rfl])).2.2
        have hlen : sigs.length + (if (AMap.get? sigs v).isNone then 1 else 0) ≤ vals.length := by
          rw [← bmap_length v sig _ hsort, ← List.length_map (f := Prod.fst),
            ← List.length_range (n := vals.length)]
          refine (List.subperm_of_subset ?_ ?_).length_le
          · exact (bmap_sorted _ _ _ hsort).imp (fun h => Nat.ne_of_lt h)
          · intro w hw
            rw [bmap_keys] at hw
            rcases hw with rfl | hw
            · exact List.mem_range.2 hvlt
            · obtain ⟨x, hx, rfl⟩ := List.mem_map.1 hw
              obtain ⟨val, -, -, z, -⟩ := h5 x hx
              exact List.mem_range.2 (List.getElem?_eq_some_iff.1 z).1
        obtain ⟨b', e1, e2, e3, e4, e5⟩ := ginsert_next hgi h2 v sig (by omega)
        refine ⟨b', e1, e2, e3, e4, .inr ⟨by simp, _, e5, ?_, ?_⟩⟩
        · intro w
          rw [bmap_keys, h3, List.mem_append, List.mem_singleton]
          exact Or.comm
        · intro x hx
          rcases mem_bmap_insert hx with rfl | hx
          · exact hsig0
          · exact h5 x hx
    refine ⟨{ σ1 with gossip := b' }, _, hgo ?_, t3, t4.fc, t4.newP, t4.knownP, t4.genesis,
      by show b'.capacity = _; rw [b4, t4.gossip],
      R1.buffers rfl ⟨R1.inv.buf.new, R1.inv.buf.known, b2, b3⟩, b5⟩
    rw [if_pos rfl]
    simp only [b1]

/-- The node's validators vote; if it aggregates, every vote ends up in the gossip buffer. -/
theorem Row.signVotes (Q : Able c vals)
    (W : World c.ctx.E t vals [] (State.fromGenesis c.ctx.E.H t vals) K)
    (hs : s < 2 ^ 32) (agg : Bool) (todo : List Nat) (done : List Nat)
    (R : Row c.ctx.E t vals K root anchor f s top ops σ) (ht : 5 * s ≤ σ.mem.db.time + 1)
    (hv : ∀ v ∈ todo, v ∈ c.ids) (hcap : vals.length ≤ σ.gossip.capacity)
    (hc : Collected c.X c.H vals (lineVote f s) done σ.gossip) :
    ∃ σ' ops', signVotes c (lineVote f s) agg todo σ =
        .ok (σ', todo.map (fun v => .vote v (lineVote f s) (c.sign v (lineVote f s)))) ∧
      σ'.mem.db = σ.mem.db ∧ σ'.fc = σ.fc ∧ σ'.newP = σ.newP ∧ σ'.knownP = σ.knownP ∧
      σ'.genesisTime = σ.genesisTime ∧ σ'.gossip.capacity = σ.gossip.capacity ∧
      Row c.ctx.E t vals K root anchor f s top ops' σ' ∧
      Collected c.X c.H vals (lineVote f s) (if agg then done ++ todo else done) σ'.gossip := by
  induction todo generalizing done σ ops with
  | nil =>
    exact ⟨σ, ops, rfl, rfl, rfl, rfl, rfl, rfl, rfl, R, by simpa using hc⟩
  | cons v todo ih =>
    obtain ⟨sig, g1, g2⟩ := Q.votes v (hv v List.mem_cons_self) (lineVote f s)
    cases agg with
    | true =>
      obtain ⟨σ1, ops1, a1, a2, a3, a4, a5, a6, a7, R1, a8⟩ := R.takeVote W hs true ht g2 hcap hc
      obtain ⟨σ', ops', i1, i2, i3, i4, i5, i6, i7, i8, i9⟩ := ih (done ++ [v]) R1
        (by rw [a2]; exact ht) (fun w hw => hv w (List.mem_cons_of_mem _ hw))
        (by rw [a7]; exact hcap) a8
      refine ⟨σ', ops', ?_, i2.trans a2, i3.trans a3, i4.trans a4, i5.trans a5, i6.trans a6,
        i7.trans a7, i8, by simpa using i9⟩
      unfold Node.signVotes
      rw [g1]
      simp only [if_true]
      rw [a1]
      simp only [_root_.Verif.Node.R.store]
      rw [i1]
      simp [g1]
    | false =>
      obtain ⟨σ', ops', i1, i2, i3, i4, i5, i6, i7, i8, i9⟩ := ih done R ht
        (fun w hw => hv w (List.mem_cons_of_mem _ hw)) hcap hc
      refine ⟨σ', ops', ?_, i2, i3, i4, i5, i6, i7, i8, i9⟩
      unfold Node.signVotes
      rw [g1]
      simp only [Bool.false_eq_true, if_false]
      rw [i1]
      simp [g1]
end

end Verif.Node
