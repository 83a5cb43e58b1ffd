import Verif.Spec.Requests
import Verif.Lemmas.ActorSteps
import Verif.Props.C39_Delivery
/-!
# C77: the node asks for exactly the first missing ancestor
-/
namespace Verif.Node
open Verif Verif.Db Verif.Node.Witness Verif.Witness

section
variable {c : Ctx} {t : Nat} {vals : List Validator} {bs : List Block} {a0 : State}
  {body : Option (List AggAtt)} {K : Header → Prop} {rank : Root → Nat} {root : Root}
  {anchor : State} {ops : List Db.Op} {a : Actor}

/-- Once every queued block's parent is imported, nothing is requested. -/
theorem drain_fetch (ho : ∀ l, (c.order l).Perm l) (W : World c.E t vals bs a0 K)
    (A : AnchorOk c.E.H (State.fromGenesis c.E.H t vals) K root anchor)
    (hR : Ranks c.E.H K rank) : ∀ (n : Nat) {ops : List Db.Op} {a : Actor} (q : List SignedBlock)
      {a' : Actor} {f : List Root},
      AInv c.E t vals a0 body K rank root anchor ops a →
      (∀ b ∈ q, K (b.block.header c.E.H)) → Ready a.store.mem.db q →
      drain c n a q = .ok (a', f) → f = [] := by
  intro n
  induction n with
  | zero =>
    intro ops a q a' f I hk hr e
    cases q with
    | nil => unfold drain at e; cases e; rfl
    | cons x q => unfold drain at e; cases e
  | succ n ih =>
    intro ops a q a' f I hk hr e
    cases q with
    | nil => unfold drain at e; cases e; rfl
    | cons sb q =>
      have hp := hr sb List.mem_cons_self
      rcases I.process ho W A hR sb (hk sb List.mem_cons_self) with
        ⟨-, h, -⟩ | ⟨o, ops1, e1, I1, x1, p⟩
      · rw [h] at hp; cases hp
      · obtain ⟨q1, q2, -, -⟩ := p.queue ho W I I1 x1
        have hrq : Ready a.store.mem.db q := fun b hb => hr b (List.mem_cons_of_mem _ hb)
        have hf : o.fetch = [] := by
          cases p with
          | reject _ _ _ _ _ h => exact h
          | pend _ h => rw [h] at hp; cases hp
          | fail _ _ _ _ h => exact h
          | done _ _ _ _ _ _ h => exact h
        unfold drain at e
        rw [e1] at e
        simp only at e
        split at e
        · cases e
        next a2 f2 h2 =>
          cases e
          rw [hf, List.nil_append]
          refine ih (q ++ o.push) I1 ?_ ?_ h2
          · intro b hb
            rcases List.mem_append.1 hb with hb | hb
            · exact hk b (List.mem_cons_of_mem _ hb)
            · exact q1 b hb
          · intro b hb
            rcases List.mem_append.1 hb with hb | hb
            · exact x1.hasState W I.node I1.node (hrq b hb)
            · exact q2 b hb

theorem Up.rank_lt {hs : AMap Root Header} {x y : Root}
    (hr : ∀ r h, hs.get? r = some h → rank h.parentRoot < rank r) (u : Up hs root x y) :
    rank y < rank x := by
  induction u with
  | one e _ => exact hr _ _ e
  | more e _ _ ih => exact Nat.lt_trans ih (hr _ _ e)

theorem imported_header (W : World c.E t vals bs a0 K)
    (I : AInv c.E t vals a0 body K rank root anchor ops a) {x : Root}
    (h : hasState a.store.mem.db x = true) : ∃ hd, a.store.mem.db.headers.get? x = some hd ∧
      (x ≠ root → hasState a.store.mem.db hd.parentRoot = true) := by
  obtain ⟨st, e⟩ := (I.node.hasState_iff W x).1 h
  refine ⟨_, (I.node.tree.own x st e).2, fun hx => ?_⟩
  obtain ⟨p, e2, -⟩ := I.node.tree.parentOf x st e hx
  exact (I.node.hasState_iff W _).2 ⟨p, e2⟩

theorem FirstMissing.det {db : Db} {x r r' : Root} (h : FirstMissing db x r)
    (h' : FirstMissing db x r') : r = r' := by
  induction h with
  | here e =>
    cases h' with
    | here => rfl
    | up e' => rw [e] at e'; cases e'
  | up e _ _ ih =>
    cases h' with
    | here e' => rw [e] at e'; cases e'
    | up e' _ h2 => rw [e] at e'; cases e'; exact ih h2

/-- What the first missing block of a path looks like from further up. -/
theorem FirstMissing.above {db : Db} {x y r : Root} (u : Up db.headers root x y)
    (h : FirstMissing db x r) : FirstMissing db y r := by
  induction u with
  | one e _ =>
    cases h with
    | here e' => rw [e] at e'; cases e'
    | up e' _ h2 => rw [e] at e'; cases e'; exact h2
  | more e _ _ ih =>
    cases h with
    | here e' => rw [e] at e'; cases e'
    | up e' _ h2 => rw [e] at e'; cases e'; exact ih h2

theorem FirstMissing.notImported (W : World c.E t vals bs a0 K)
    (I : AInv c.E t vals a0 body K rank root anchor ops a) {x r : Root}
    (h : FirstMissing a.store.mem.db x r) : hasState a.store.mem.db x = false := by
  cases h with
  | here e =>
    cases hs : hasState a.store.mem.db x with
    | false => rfl
    | true =>
      obtain ⟨hd, e', -⟩ := imported_header W I hs
      rw [e] at e'; cases e'
  | up _ hs _ => exact hs

theorem firstMissing_of_up (W : World c.E t vals bs a0 K)
    (I : AInv c.E t vals a0 body K rank root anchor ops a) {x r : Root}
    (u : Up a.store.mem.db.headers root x r) (hr : a.store.mem.db.headers.get? r = none) :
    FirstMissing a.store.mem.db x r := by
  have key : ∀ {x : Root} {h : Header}, a.store.mem.db.headers.get? x = some h → x ≠ root →
      FirstMissing a.store.mem.db h.parentRoot r → FirstMissing a.store.mem.db x r := by
    intro x h e hx hf
    refine .up e ?_ hf
    cases hs : hasState a.store.mem.db x with
    | false => rfl
    | true =>
      obtain ⟨hd, e', h'⟩ := imported_header W I hs
      rw [e] at e'
      cases e'
      rw [hf.notImported W I] at h'
      exact absurd (h' hx) (by decide)
  induction u with
  | one e hx => exact key e hx (.here hr)
  | more e hx _ ih => exact key e hx (ih hr key)

/-- The node's header table before and after a pending block was stored. -/
theorem firstMissing_write {db : Db} {sb : SignedBlock} {H : Hash}
    (hr : ∀ r h, (insertPendingBlock H db (sb.block.root H) sb).headers.get? r = some h →
      rank h.parentRoot < rank r)
    {x r : Root} (hx : rank x < rank (sb.block.root H)) :
    FirstMissing (insertPendingBlock H db (sb.block.root H) sb) x r ↔ FirstMissing db x r := by
  have hget : ∀ y : Root, rank y < rank (sb.block.root H) →
      (insertPendingBlock H db (sb.block.root H) sb).headers.get? y = db.headers.get? y := by
    intro y hy
    show (db.headers.insert _ _).get? y = _
    rw [AMap.get?_insert, if_neg]
    rintro rfl
    exact absurd hy (Nat.lt_irrefl _)
  constructor
  · intro h
    induction h with
    | here e => exact .here (by rw [← hget _ hx]; exact e)
    | up e hs _ ih =>
      have := hr _ _ e
      exact .up (by rw [← hget _ hx]; exact e) hs (ih (Nat.lt_trans this hx))
  · intro h
    induction h with
    | here e => exact .here (by rw [hget _ hx]; exact e)
    | up e hs _ ih =>
      have e := (hget _ hx).trans e
      have := hr _ _ e
      exact .up e hs (ih (Nat.lt_trans this hx))

/-- **C77.** A reachable node that receives a block asks the network for at most one block. It asks
exactly when the received block is neither at or below the finalized slot nor too far in the
future, and its ancestry runs over stored but not imported blocks into a block that is not stored;
and that block is what it asks for. -/
theorem C77_requests {evs : List Event} {sb : SignedBlock} {a' : Actor} {f : List Root}
    (ho : ∀ l, (c.order l).Perm l)
    (W : World c.E t vals bs a0
      (Known c.E.H (State.fromGenesis c.E.H t vals) bs (.block sb :: evs)))
    (h : AReach c a0 body evs a) (hs : a.step c (.block sb) = .ok (a', f)) :
    f.length ≤ 1 ∧ ∀ r, f = [r] ↔
      a.store.mem.db.finalized.slot < sb.block.slot ∧
      sb.block.slot * 5 ≤ a.store.mem.db.time + 1 ∧
      FirstMissing a.store.mem.db sb.block.parentRoot r := by
  obtain ⟨rank, hR⟩ := W.acyclic
  obtain ⟨root, anchor, ops, A, I⟩ := areach_ainv ho W hR h
    (fun e he => eventK_known e (List.mem_cons_of_mem _ he))
  have hk : Known c.E.H (State.fromGenesis c.E.H t vals) bs (.block sb :: evs)
      (sb.block.header c.E.H) := .inr (.inr ⟨sb, .inl List.mem_cons_self, rfl⟩)
  have hrk : rank sb.block.parentRoot < rank (sb.block.root c.E.H) := hR _ hk
  have hs : a.onBlock c sb = .ok (a', f) := hs
  unfold Actor.onBlock at hs
  split at hs
  · cases hs
  next a1 f1 hd =>
  split at hs
  · cases hs
  next db hdb =>
  cases hs
  unfold drain at hd
  rcases I.process ho W A hR sb hk with ⟨h1, -⟩ | ⟨o, ops1, e, I1, x1, p⟩
  · rw [h1] at hd; cases hd
  rw [e] at hd
  simp only [List.nil_append] at hd
  split at hd
  · cases hd
  next a2 f2 hd2 =>
  cases hd
  obtain ⟨q1, q2, -, -⟩ := p.queue ho W I I1 x1
  rw [drain_fetch ho W A hR _ o.push I1 q1 q2 hd2, List.append_nil]
  cases p with
  | reject why _ _ _ _ hf =>
    rw [hf]
    refine ⟨Nat.zero_le _, fun r => ⟨fun h => (by cases h), ?_⟩⟩
    rintro ⟨k1, k2, -⟩
    omega
  | fail hp _ _ _ hf =>
    rw [hf]
    refine ⟨Nat.zero_le _, fun r => ⟨fun h => (by cases h), ?_⟩⟩
    rintro ⟨-, -, k⟩
    rw [k.notImported W I] at hp; cases hp
  | done hp _ _ _ _ _ hf =>
    rw [hf]
    refine ⟨Nat.zero_le _, fun r => ⟨fun h => (by cases h), ?_⟩⟩
    rintro ⟨-, -, k⟩
    rw [k.notImported W I] at hp; cases hp
  | pend hfin hno hst hdb1 _ _ _ _ hf hfut =>
    have hrk1 := I1.node.ranks W hR
    have hself : o.actor.store.mem.db.headers.get? (sb.block.root c.E.H) =
        some (sb.block.header c.E.H) := by rw [hdb1]; exact AMap.get?_insert_self _ _ _
    have tr : ∀ r, FirstMissing o.actor.store.mem.db (sb.block.root c.E.H) r →
        FirstMissing a.store.mem.db sb.block.parentRoot r := by
      intro r k
      cases k with
      | here e' => rw [hself] at e'; cases e'
      | up e' _ k =>
        rw [hself] at e'
        cases e'
        rw [hdb1] at k hrk1
        exact (firstMissing_write hrk1 hrk).1 k
    have rt : ∀ r y, FirstMissing a.store.mem.db sb.block.parentRoot r →
        Up o.actor.store.mem.db.headers root (sb.block.root c.E.H) y →
        FirstMissing o.actor.store.mem.db y r := by
      intro r y k u
      have k : FirstMissing o.actor.store.mem.db sb.block.parentRoot r := by
        rw [hdb1] at hrk1 ⊢
        exact (firstMissing_write hrk1 hrk).2 k
      cases u with
      | one e' _ => rw [hself] at e'; cases e'; exact k
      | more e' _ u => rw [hself] at e'; cases e'; exact k.above u
    rcases hf with ⟨r, -, hf, hnone, u⟩ | ⟨hf, r, b, -, hr, hg, hb, u⟩
    · rw [hf]
      have k := tr r (firstMissing_of_up W I1 u hnone)
      refine ⟨Nat.le_refl _, fun r' => ⟨?_, ?_⟩⟩
      · intro h
        cases h
        exact ⟨hfin, by omega, k⟩
      · rintro ⟨-, -, k'⟩
        rw [k.det k']
    · rw [hf]
      refine ⟨Nat.zero_le _, fun r' => ⟨fun h => (by cases h), ?_⟩⟩
      rintro ⟨-, -, k⟩
      exfalso
      have k := rt r' r k u
      have hb : hasState o.actor.store.mem.db b.block.parentRoot = true :=
        x1.hasState W I.node I1.node hb
      have hh := (I1.node.loaded W hr hg).2.2
      cases k with
      | here e' => rw [hh] at e'; cases e'
      | up e' _ k =>
        rw [hh] at e'
        cases e'
        have k := k.notImported W I1
        rw [show ((b.block.header c.E.H).parentRoot) = b.block.parentRoot from rfl, hb] at k
        cases k

/-- Other events do not make the node ask for anything. -/
theorem C77_only_blocks {a' : Actor} {f : List Root} {ev : Event} (hb : ∀ sb, ev ≠ .block sb)
    (e : a.step c ev = .ok (a', f)) : f = [] := by
  cases ev with
  | block sb => exact absurd rfl (hb sb)
  | _ =>
    unfold Actor.step at e
    simp only at e
    split at e
    · cases e
    · cases e; rfl
end

/-! ## Instance -/

/-- What the node of `C39_instance` asks for when it gets a block after some events. -/
def asked (evs : List Event) (sb : SignedBlock) : Option (List Root) :=
  match crun wCtx clockActor evs with
  | .error _ => none
  | .ok a => match a.step wCtx (.block sb) with
    | .error _ => none
    | .ok (_, f) => some f

/-- Blocks 5 and 4 come in that order; the node asks for 4 (root 5), then for 3 (root 4). When
block 6 on block 5 comes next, it asks for block 3 again, through the two stored blocks. Then
block 1 is imported, and block 3 is asked for no more when it comes. -/
example : asked [] (sgn (mkBlock 5 4 [])) = some [5] ∧
    asked [.block (sgn (mkBlock 5 4 []))] (sgn (mkBlock 4 3 [])) = some [4] ∧
    asked [.block (sgn (mkBlock 4 3 [])), .block (sgn (mkBlock 5 4 []))] (sgn (mkBlock 6 5 [])) =
      some [4] ∧
    asked [.block (sgn (mkBlock 1 0 [])), .block (sgn (mkBlock 4 3 []))] (sgn (mkBlock 3 1 [])) =
      some [] := by
  decide +kernel

/-- The hypotheses of `C77_requests` are met in the third case. -/
example : ∃ a a' f, AReach wCtx wG (some [])
      [.block (sgn (mkBlock 4 3 [])), .block (sgn (mkBlock 5 4 [])), .tick 32000 false] a ∧
    a.step wCtx (.block (sgn (mkBlock 6 5 []))) = .ok (a', f) ∧ f = [4] ∧
    World wCtx.E 0 wVals [] wG (Known wCtx.E.H (State.fromGenesis wCtx.E.H 0 wVals) []
      [.block (sgn (mkBlock 6 5 [])), .block (sgn (mkBlock 4 3 [])), .block (sgn (mkBlock 5 4 [])),
        .tick 32000 false]) := by
  have h : asked [.block (sgn (mkBlock 4 3 [])), .block (sgn (mkBlock 5 4 []))]
      (sgn (mkBlock 6 5 [])) = some [4] := by decide +kernel
  unfold asked at h
  split at h
  · cases h
  next a ha =>
    split at h
    · cases h
    next a' f hf =>
      cases h
      exact ⟨a, a', _, clock_reach.run (crun_arun ha), hf, rfl,
        world_of_list (by decide +kernel) (by decide +kernel)⟩

end Verif.Node
