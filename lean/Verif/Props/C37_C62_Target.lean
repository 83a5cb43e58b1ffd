import Verif.Props.C36_Validation
import Verif.Props.C34_C35_C61_Checkpoints
import Verif.Props.C01_Justifiable
/-!
# C37, C62: the votes a node produces
-/
namespace Verif.Node
open Verif Verif.Db Verif.Node.Witness Verif.Witness

/-- `x` is the first block at or before `r` (following parent links) whose header satisfies `P`. -/
def FirstBack (hs : AMap Root Header) (P : Header → Prop) (r x : Root) : Prop :=
  ∃ n, Back hs r n x ∧ (∀ h, hs.get? x = some h → P h) ∧
    ∀ m y h, m < n → Back hs r m y → hs.get? y = some h → ¬ P h

/-- `x` is the first block at or before `r` at or below a slot, or the third ancestor of `r` if
that comes first. -/
def BackToSlot (hs : AMap Root Header) (slot : Nat) (r x : Root) : Prop :=
  ∃ n ≤ 3, Back hs r n x ∧ (n = 3 ∨ ∀ h, hs.get? x = some h → h.slot ≤ slot) ∧
    ∀ m y h, m < n → Back hs r m y → hs.get? y = some h → slot < h.slot

/-- The rule for targets: go back towards the safe target by at most three blocks, then on to a
block that can be justified (or is final already); never behind the justified checkpoint. -/
def TargetRule (hs : AMap Root Header) (head : Root) (safeSlot : Nat)
    (justified finalized target : Checkpoint) : Prop :=
  ∃ a b hb, BackToSlot hs safeSlot head a ∧
    FirstBack hs (fun h => h.slot ≤ finalized.slot ∨
      slotIsJustifiableAfter h.slot finalized.slot = true) a b ∧
    hs.get? b = some hb ∧
    target = if hb.slot < justified.slot then justified else ⟨b, hb.slot⟩

theorem walkToSafe_spec {hs : AMap Root Header} {safe : Nat} : ∀ (n : Nat) {r x : Root}
    {h hx : Header}, hs.get? r = some h → walkToSafe hs safe n r h = .ok (x, hx) →
    hs.get? x = some hx ∧ ∃ k ≤ n, Back hs r k x ∧ (k = n ∨ hx.slot ≤ safe) ∧
      ∀ m y hy, m < k → Back hs r m y → hs.get? y = some hy → safe < hy.slot := by
  intro n
  induction n with
  | zero =>
    intro r x h hx e hw
    obtain ⟨rfl, rfl⟩ := Prod.mk.inj (Except.ok.inj hw)
    exact ⟨e, 0, Nat.le_refl _, .here e, .inl rfl, fun m _ _ hm => absurd hm (Nat.not_lt_zero _)⟩
  | succ n ih =>
    intro r x h hx e hw
    unfold walkToSafe at hw
    split at hw
    next hgt =>
      split at hw
      · cases hw
      next p ep =>
        obtain ⟨h1, k, hk, b, h2, h3⟩ := ih ep hw
        refine ⟨h1, k + 1, by omega, .up e b, by omega, ?_⟩
        intro m y hy hm bm ey
        cases bm with
        | here _ => rw [e] at ey; cases ey; exact hgt
        | up e' bm =>
          rw [e] at e'
          cases e'
          exact h3 _ y hy (by omega) bm ey
    next hgt =>
      obtain ⟨rfl, rfl⟩ := Prod.mk.inj (Except.ok.inj hw)
      exact ⟨e, 0, Nat.zero_le _, .here e, .inr (by omega),
        fun m _ _ hm => absurd hm (Nat.not_lt_zero _)⟩

theorem walkToJustifiable_spec {hs : AMap Root Header} {fin : Nat} : ∀ (n : Nat) {r x : Root}
    {h hx : Header}, hs.get? r = some h → walkToJustifiable hs fin n r h = .ok (x, hx) →
    hs.get? x = some hx ∧ FirstBack hs (fun h => h.slot ≤ fin ∨
      slotIsJustifiableAfter h.slot fin = true) r x := by
  intro n
  induction n with
  | zero => intro r x h hx e hw; cases hw
  | succ n ih =>
    intro r x h hx e hw
    unfold walkToJustifiable at hw
    split at hw
    next hgt =>
      split at hw
      · cases hw
      next p ep =>
        obtain ⟨h1, k, b, h2, h3⟩ := ih ep hw
        refine ⟨h1, k + 1, .up e b, h2, ?_⟩
        intro m y hy hm bm ey
        cases bm with
        | here _ =>
          rw [e] at ey
          cases ey
          rintro (h | h)
          · exact absurd hgt.1 (by omega)
          · exact hgt.2 h
        | up e' bm =>
          rw [e] at e'
          cases e'
          exact h3 _ y hy (by omega) bm ey
    next hgt =>
      obtain ⟨rfl, rfl⟩ := Prod.mk.inj (Except.ok.inj hw)
      refine ⟨e, 0, .here e, ?_, fun m _ _ hm => absurd hm (Nat.not_lt_zero _)⟩
      intro h' eh'
      rw [e] at eh'
      cases eh'
      by_cases hc : h.slot ≤ fin
      · exact .inl hc
      · exact .inr (Classical.not_not.1 fun hn => hgt ⟨by omega, hn⟩)

/-- On every store: if a target is computed at all, it is the one of the rule. -/
theorem attestationTarget_rule {s : Store} {j f c : Checkpoint}
    (h : attestationTarget s j f = .ok c) :
    ∃ sh, s.mem.db.headers.get? s.mem.db.safeTarget = some sh ∧
      TargetRule s.mem.db.headers s.mem.db.head sh.slot j f c := by
  unfold attestationTarget Store.header at h
  split at h
  · cases h
  next hh e1 =>
  split at h
  · cases h
  next sh e2 =>
  split at h
  · cases h
  next a ha w1 =>
  split at h
  · cases h
  next b hb w2 =>
  obtain ⟨g1, k, k1, k2, k3, k4⟩ := walkToSafe_spec _ e1 w1
  obtain ⟨g2, k5⟩ := walkToJustifiable_spec _ g1 w2
  refine ⟨sh, e2, a, b, hb, ⟨k, k1, k2, ?_, k4⟩, k5, g2, ?_⟩
  · rcases k3 with h | h
    · exact .inl h
    · right
      intro h' e'
      rw [g1] at e'
      cases e'
      exact h
  · split at h
    next hc => rw [if_pos hc]; exact (Except.ok.inj h).symm
    next hc => rw [if_neg hc]; exact (Except.ok.inj h).symm

/-- The rule leaves no choice. -/
theorem FirstBack.unique {hs : AMap Root Header} {P : Header → Prop} {r x y : Root}
    (h1 : FirstBack hs P r x) (h2 : FirstBack hs P r y) : x = y := by
  obtain ⟨n, a1, a2, a3⟩ := h1
  obtain ⟨m, b1, b2, b3⟩ := h2
  obtain ⟨hx, ex⟩ := a1.right
  obtain ⟨hy, ey⟩ := b1.right
  rcases Nat.lt_trichotomy n m with h | h | h
  · exact absurd (a2 _ ex) (b3 n x hx h a1 ex)
  · subst h; exact a1.unique b1
  · exact absurd (b2 _ ey) (a3 m y hy h b1 ey)

section
variable {E : Env} {t : Nat} {vals : List Validator} {bs : List Block} {a0 : State}
  {body : Option (List AggAtt)} {K : Header → Prop} {root : Root} {anchor : State}
  {X : State → Prop} {ops : List Db.Op} {s : Store}

/-- Above the anchor's slot there is always a parent to step to. -/
theorem NInv.stepBack (I : NInv E t vals a0 body K root anchor X ops s) {r : Root} {st : State}
    (h : stateOf root anchor ops r = some st) (hs : anchor.slot < st.slot) :
    ∃ p, stateOf root anchor ops st.latestBlockHeader.parentRoot = some p ∧
      s.mem.db.headers.get? st.latestBlockHeader.parentRoot = some p.latestBlockHeader ∧
      p.slot < st.slot ∧ HAnc s.mem.db.headers st.latestBlockHeader.parentRoot r := by
  have hr : r ≠ root := by
    intro hr
    rw [hr, I.tree.anc] at h
    cases h
    omega
  obtain ⟨p, h1, h2, -⟩ := I.tree.parentOf _ _ h hr
  have e1 := (I.tree.own _ _ h).2
  have e2 := (I.tree.own _ _ h1).2
  refine ⟨p, h1, e2, h2, .up e1 e2 ?_ (.self e2)⟩
  rw [I.tree.slotEq _ _ h, I.tree.slotEq _ _ h1]
  exact h2

theorem NInv.walkToSafe (I : NInv E t vals a0 body K root anchor X ops s) {safe : Nat}
    (hsafe : anchor.slot ≤ safe) : ∀ (n : Nat) {r : Root} {st : State},
    stateOf root anchor ops r = some st →
    ∃ r' st', Node.walkToSafe s.mem.db.headers safe n r st.latestBlockHeader =
      .ok (r', st'.latestBlockHeader) ∧ stateOf root anchor ops r' = some st' ∧
      HAnc s.mem.db.headers r' r := by
  intro n
  induction n with
  | zero => intro r st h; exact ⟨r, st, rfl, h, .self (I.tree.own _ _ h).2⟩
  | succ n ih =>
    intro r st h
    unfold Node.walkToSafe
    split
    next hgt =>
      rw [I.tree.slotEq _ _ h] at hgt
      obtain ⟨p, h1, h2, -, h3⟩ := I.stepBack h (by omega)
      obtain ⟨r', st', k1, k2, k3⟩ := ih h1
      rw [h2]
      exact ⟨r', st', k1, k2, k3.trans h3⟩
    · exact ⟨r, st, rfl, h, .self (I.tree.own _ _ h).2⟩

theorem NInv.walkToJustifiable (I : NInv E t vals a0 body K root anchor X ops s) {fin : Nat}
    (hfin : anchor.slot ≤ fin) {rank : Root → Nat}
    (hr : ∀ r h, s.mem.db.headers.get? r = some h → rank h.parentRoot < rank r) :
    ∀ (n : Nat) {r : Root} {st : State},
    stateOf root anchor ops r = some st → below rank s.mem.db.headers r < n →
    ∃ r' st', Node.walkToJustifiable s.mem.db.headers fin n r st.latestBlockHeader =
      .ok (r', st'.latestBlockHeader) ∧ stateOf root anchor ops r' = some st' ∧
      HAnc s.mem.db.headers r' r := by
  intro n
  induction n with
  | zero => intro r st _ h; omega
  | succ n ih =>
    intro r st h hb
    unfold Node.walkToJustifiable
    split
    next hgt =>
      have hgt := hgt.1
      rw [I.tree.slotEq _ _ h] at hgt
      obtain ⟨p, h1, h2, -, h3⟩ := I.stepBack h (by omega)
      have := below_parent hr (I.tree.own _ _ h).2
      obtain ⟨r', st', k1, k2, k3⟩ := ih h1 (by omega)
      rw [h2]
      exact ⟨r', st', k1, k2, k3.trans h3⟩
    · exact ⟨r, st, rfl, h, .self (I.tree.own _ _ h).2⟩

/-- The target exists and is an imported ancestor of the head at its slot. -/
theorem NInv.target (W : World E t vals bs a0 K)
    (I : NInv E t vals a0 body K root anchor X ops s) (S : Settled s) :
    ∃ c st, attestationTarget s s.mem.db.justified s.mem.db.finalized = .ok c ∧
      stateOf root anchor ops c.root = some st ∧ st.slot = c.slot ∧
      HAnc s.mem.db.headers c.root s.mem.db.head ∧ s.mem.db.justified.slot ≤ c.slot := by
  obtain ⟨sh, h1⟩ := I.cp.head
  obtain ⟨ss, h2⟩ := I.cp.safe
  obtain ⟨sj, h3, h4⟩ := I.cp.just
  obtain ⟨rank, hr⟩ := I.rank W
  have l1 := I.tree.slot_ge h2
  obtain ⟨a, sa, w1, g1, c1⟩ := I.walkToSafe l1 lookback h1
  obtain ⟨b, sb, w2, g2, c2⟩ := I.walkToJustifiable I.anchor_le_fin hr _ g1
    (below_le rank s.mem.db.headers a)
  have e : attestationTarget s s.mem.db.justified s.mem.db.finalized =
      if sb.slot < s.mem.db.justified.slot then .ok s.mem.db.justified
      else .ok { root := b, slot := sb.slot } := by
    unfold attestationTarget Store.header
    rw [(I.tree.own _ _ h1).2, (I.tree.own _ _ h2).2]
    simp only [I.tree.slotEq _ _ h2]
    rw [w1]
    simp only
    rw [w2]
    simp only [I.tree.slotEq _ _ g2]
  rw [e]
  by_cases hc : sb.slot < s.mem.db.justified.slot
  · rw [if_pos hc]
    exact ⟨_, sj, rfl, h3, h4, S, Nat.le_refl _⟩
  · rw [if_neg hc]
    exact ⟨_, sb, rfl, g2, rfl, c2.trans c1, by simp only; omega⟩

/-- The vote a node produces. -/
theorem NInv.produce (W : World E t vals bs a0 K)
    (I : NInv E t vals a0 body K root anchor X ops s) (S : Settled s) (slot : Nat) :
    ∃ (sh : State) (c : Checkpoint) (sc : State) (s' : Store),
      stateOf root anchor ops s.mem.db.head = some sh ∧
      produceAttestationData s slot = .ok
        ({ slot := slot, head := ⟨s.mem.db.head, sh.slot⟩, target := c,
           source := if sh.latestJustified.root = 0
            then { sh.latestJustified with root := s.mem.db.head } else sh.latestJustified }, s') ∧
      s'.mem.db = s.mem.db ∧
      attestationTarget s' s.mem.db.justified s.mem.db.finalized = .ok c ∧
      stateOf root anchor ops c.root = some sc ∧ sc.slot = c.slot ∧
      HAnc s.mem.db.headers c.root s.mem.db.head ∧ s.mem.db.justified.slot ≤ c.slot := by
  obtain ⟨sh, h1⟩ := I.cp.head
  obtain ⟨s1, g1, g2, -, I1⟩ := I.getState W s.mem.db.head
  have S1 : Settled s1 := by unfold Settled at *; rw [g2]; exact S
  obtain ⟨c, sc, c1, c2, c3, c4, c5⟩ := I1.target W S1
  rw [stateOf_quiet (by exact trivial)] at c2
  rw [g2] at c1 c4 c5
  refine ⟨sh, c, sc, s1, h1, ?_, g2, c1, c2, c3, c4, c5⟩
  unfold produceAttestationData
  simp only
  rw [g1, h1]
  unfold Store.header
  simp only
  rw [g2, (I.tree.own _ _ h1).2]
  simp only
  rw [c1, I.tree.slotEq _ _ h1]
end

/-- **C37** (and the last part of **C59**). Producing a vote never fails. Its head is the store's
head; its target is fixed by the rule, is the head or an ancestor of it, is not below the justified
slot, and unless it is the justified checkpoint itself it is justifiable after the finalized slot or
not above it. -/
theorem C37_attestation_target {E : Env} {t : Nat} {vals : List Validator} {bs : List Block}
    {a0 : State} {body : Option (List AggAtt)} {evs : List Event} {s : Store}
    (W : World E t vals bs a0 (Known E.H (State.fromGenesis E.H t vals) bs evs))
    (h : Reach E a0 body evs s) (slot : Nat) :
    ∃ d s', produceAttestationData s slot = .ok (d, s') ∧ s'.mem.db = s.mem.db ∧ d.slot = slot ∧
      d.head.root = s.mem.db.head ∧ KnownAt s.mem.db.headers d.head ∧
      KnownAt s.mem.db.headers d.target ∧
      Ancestor s.mem.db.headers d.target.root s.mem.db.head ∧
      s.mem.db.justified.slot ≤ d.target.slot ∧
      (d.target = s.mem.db.justified ∨ d.target.slot ≤ s.mem.db.finalized.slot ∨
        JustifiableDistance (d.target.slot - s.mem.db.finalized.slot)) ∧
      ∃ sh, s.mem.db.headers.get? s.mem.db.safeTarget = some sh ∧
        TargetRule s.mem.db.headers s.mem.db.head sh.slot s.mem.db.justified s.mem.db.finalized
          d.target := by
  obtain ⟨root, anchor, ops, A, I, S, -⟩ := reach_ninv W h eventK_known
  obtain ⟨sh, c, sc, s', h1, h2, h3, h4, h5, h6, h7, h8⟩ := I.produce W S slot
  have hr := attestationTarget_rule h4
  rw [h3] at hr
  refine ⟨_, s', h2, h3, rfl, rfl, ⟨_, (I.tree.own _ _ h1).2, I.tree.slotEq _ _ h1⟩,
    ⟨_, (I.tree.own _ _ h5).2, by rw [I.tree.slotEq _ _ h5, h6]⟩, hanc_ancestor h7, h8, ?_, hr⟩
  simp only
  obtain ⟨-, -, a, b, hb, -, ⟨n, -, q, -⟩, q1, q2⟩ := hr
  split at q2
  · exact .inl q2
  · right
    rw [q2]
    rcases q _ q1 with q | q
    · exact .inl q
    · exact .inr (C01_justifiable_sound _ _ q).2

/-- **C37.** The rule determines the target. -/
theorem C37_rule_unique {hs : AMap Root Header} {head : Root} {safeSlot : Nat}
    {j f c c' : Checkpoint} (h1 : TargetRule hs head safeSlot j f c)
    (h2 : TargetRule hs head safeSlot j f c') : c = c' := by
  obtain ⟨a, b, hb, a1, a2, a3, a4⟩ := h1
  obtain ⟨a', b', hb', b1, b2, b3, b4⟩ := h2
  have ha : a = a' := by
    obtain ⟨n, n1, n2, n3, n4⟩ := a1
    obtain ⟨m, m1, m2, m3, m4⟩ := b1
    obtain ⟨hx, ex⟩ := n2.right
    obtain ⟨hy, ey⟩ := m2.right
    rcases Nat.lt_trichotomy n m with h | h | h
    · have k1 := m4 n a hx h n2 ex
      rcases n3 with n3 | n3
      · omega
      · have := n3 _ ex; omega
    · subst h; exact n2.unique m2
    · have k1 := n4 m a' hy h m2 ey
      rcases m3 with m3 | m3
      · omega
      · have := m3 _ ey; omega
  subst ha
  have hb2 := a2.unique b2
  subst hb2
  rw [a3] at b3
  cases b3
  rw [a4, b4]

/-! ## C62 -/

theorem genesis_head {E : Env} {t : Nat} {vals : List Validator} {body : Option (List AggAtt)}
    {root : Root} {anchor : State} {ops : List Db.Op} {m : Mem}
    (h : Db.Run E.H (State.fromGenesis E.H t vals) body root anchor ops m) :
    anchor.slot = 0 ∧ anchor.latestJustified = ⟨0, 0⟩ := by
  induction h with
  | init h1 h2 =>
    obtain ⟨root', anchor', e1, -, e3, -⟩ := init_anchor h1
    rw [h2] at e1
    cases e1
    rw [e3]
    exact ⟨rfl, rfl⟩
  | step _ _ _ ih => exact ih

/-- The checkpoints of the vote a node started from genesis produces: imported blocks on one chain. -/
theorem own_vote_chain {E : Env} {t : Nat} {vals : List Validator}
    {body : Option (List AggAtt)} {K : Header → Prop} {evs : List Event} {s s' : Store} {slot : Nat}
    {d : AttData}
    (W : World E t vals [] (State.fromGenesis E.H t vals) K)
    (h : Reach E (State.fromGenesis E.H t vals) body evs s)
    (hk : ∀ ev ∈ evs, EventK E.H K ev)
    (hp : produceAttestationData s slot = .ok (d, s')) :
    s'.mem.db = s.mem.db ∧ d.slot = slot ∧ d.head.root = s.mem.db.head ∧
      KnownAt s.mem.db.headers d.source ∧ KnownAt s.mem.db.headers d.target ∧
      KnownAt s.mem.db.headers d.head ∧ HAnc s.mem.db.headers d.source.root d.target.root ∧
      HAnc s.mem.db.headers d.target.root d.head.root := by
  obtain ⟨root, anchor, ops, A, I, S, -⟩ := reach_ninv W h hk
  obtain ⟨sh, c, sc, s1, g1, g2, g3, g4, g5, g6, g7, g8⟩ := I.produce W S slot
  rw [g2] at hp
  obtain ⟨rfl, rfl⟩ := Prod.mk.inj (Except.ok.inj hp)
  obtain ⟨z1, z2⟩ := genesis_head I.run
  -- the source is an imported ancestor of the head, not above the justified slot
  obtain ⟨src, ss, hsrc, hs1, hs2, hs3, hs4⟩ : ∃ (src : Checkpoint) (ss : State),
      (if sh.latestJustified.root = 0
        then { sh.latestJustified with root := s.mem.db.head } else sh.latestJustified) = src ∧
      stateOf root anchor ops src.root = some ss ∧ ss.slot = src.slot ∧
      HAnc s.mem.db.headers src.root s.mem.db.head ∧ src.slot ≤ s.mem.db.justified.slot := by
    have hm := I.cp.justMax _ _ g1
    by_cases hq : s.mem.db.head = root
    · have hsh : sh = anchor := by
        rw [hq, I.tree.anc] at g1
        exact (Option.some.inj g1).symm
      subst hsh
      refine ⟨⟨s.mem.db.head, 0⟩, sh, ?_, g1, z1, .self (I.tree.own _ _ g1).2, Nat.zero_le _⟩
      rw [z2]
      rfl
    · obtain ⟨cs, hne, hc⟩ := I.tree.good _ _ g1 hq
      obtain ⟨c1, -, c3, -⟩ := C06_checkpoints_in_history W.headerNZ hc hne
      obtain ⟨k1, sx, k2, k3⟩ := I.tree.hist _ _ g1 _ _ (by omega) c1 c3
      exact ⟨_, sx, if_neg c3, k2, k3, k1, hm⟩
  rw [hsrc]
  refine ⟨g3, rfl, rfl, ⟨_, (I.tree.own _ _ hs1).2, by rw [I.tree.slotEq _ _ hs1, hs2]⟩,
    ⟨_, (I.tree.own _ _ g5).2, by rw [I.tree.slotEq _ _ g5, g6]⟩,
    ⟨_, (I.tree.own _ _ g1).2, I.tree.slotEq _ _ g1⟩, ?_, g7⟩
  refine hs3.le_of_slot g7 ?_
  rw [I.tree.slotOf hs1, I.tree.slotOf g5]
  omega

/-- **C62.** On a node started from genesis the vote produced for a slot passes that node's own
gossip validation, once the slot has (almost) begun and is not before the head's slot. -/
theorem C62_own_vote_accepted {E : Env} {t : Nat} {vals : List Validator}
    {body : Option (List AggAtt)} {evs : List Event} {s s' : Store} {slot : Nat} {d : AttData}
    (W : World E t vals [] (State.fromGenesis E.H t vals)
      (Known E.H (State.fromGenesis E.H t vals) [] evs))
    (h : Reach E (State.fromGenesis E.H t vals) body evs s)
    (hp : produceAttestationData s slot = .ok (d, s'))
    (h1 : d.head.slot ≤ slot) (h2 : slot * 5 ≤ s.mem.db.time + 1) :
    validateData s' d = .ok (.ok ()) := by
  have hfin := C61_head_descends_from_finalized W h
  obtain ⟨root, anchor, ops, A, I, S, -⟩ := reach_ninv W h eventK_known
  obtain ⟨g3, v1, v2, v3, v4, v5, v6, v7⟩ := own_vote_chain W h eventK_known hp
  obtain ⟨rank, hr⟩ := I.rank W
  obtain ⟨sf, f1, f2⟩ := I.cp.fin
  refine slotwise_accepted (rank := rank) (by rw [g3]; exact hr) ?_ ?_
  · rw [g3]
    exact ⟨_, (I.tree.own _ _ f1).2, by rw [I.tree.slotEq _ _ f1, f2]⟩
  · rw [g3]
    exact ⟨v3, v4, v5, v6, v7, by rw [v2]; exact hfin, by rw [v1]; exact h1, by rw [v1]; exact h2⟩

/-- The vote produced, if any. -/
def produced (s : Store) (slot : Nat) : Option AttData :=
  (produceAttestationData s slot).toOption.map Prod.fst

/-- Non-vacuity: blocks 1 to 5 in a row without votes, then a tick: the head is block 5, the safe
target still genesis, so the target is three blocks back, at slot 2. -/
def rowEvs : List Event :=
  [ .block (sgn (mkBlock 5 4 [])), .block (sgn (mkBlock 4 3 [])), .block (sgn (mkBlock 3 2 [])),
    .block (sgn (mkBlock 2 1 [])), .block (sgn (mkBlock 1 0 [])), .tick 32000 false ]

example : World wE 0 wVals [] wG (Known wH wG [] rowEvs) ∧
    Reach wE wG (some []) rowEvs (after rowEvs) ∧
    produced (after rowEvs) 8 = some ⟨8, cp 5, cp 2, cp 0⟩ :=
  ⟨world_of_list (by decide +kernel) (by decide +kernel), reach_after (by decide +kernel),
    by decide +kernel⟩

/-- In the fork run the rule leads back to block 2, the justified one. -/
example : produced (after (forkEv :: forkEvs)) 8 = some ⟨8, cp 5, cp 2, cp 1⟩ ∧
    (after (forkEv :: forkEvs)).mem.db.justified = cp 2 ∧
    8 * 5 ≤ (after (forkEv :: forkEvs)).mem.db.time + 1 :=
  ⟨by decide +kernel, by decide +kernel, by decide +kernel⟩

/-- The store of a node started from the post-state of the witness chain (slot 5, justified 3),
after a tick to slot 8. -/
def syncStore : P Store := match init wE wState none with
  | .error e => .error e
  | .ok s => step wE s (.tick 32000 false)

/-- **C62 needs genesis.** Started from a later state, the source of the first votes is older than
the anchor, so the node rejects its own vote as having an unknown source. -/
theorem C62_fails_after_checkpoint_sync :
    ∃ s d s', syncStore = .ok s ∧ produceAttestationData s 8 = .ok (d, s') ∧
      d.source = wState.latestJustified ∧
      validateData s' d = .ok (.error .unknownSource) := by
  have h : (match syncStore with
    | .error _ => false
    | .ok s => match produceAttestationData s 8 with
      | .error _ => false
      | .ok (d, s') => decide (d.source = wState.latestJustified) &&
        decide (validateData s' d = .ok (.error .unknownSource))) = true := by decide +kernel
  split at h
  · cases h
  next s e =>
    split at h
    · cases h
    next d s' e' =>
      simp only [Bool.and_eq_true, decide_eq_true_eq] at h
      exact ⟨s, d, s', e, e', h.1, h.2⟩

end Verif.Node
