import Verif.Lemmas.StateDiff
/-!
# Lemmas about the persistent store
-/
namespace Verif.Db
open Verif

theorem mem_cachePut {c : Cache} {r : Root} {s : State} {e : Root × State}
    (h : e ∈ cachePut c r s) : e = (r, s) ∨ e ∈ c := by
  have := List.mem_of_mem_take h
  rcases List.mem_cons.1 this with h | h
  · exact .inl h
  · exact .inr (List.mem_filter.1 h).1

theorem cacheGet_some {c c' : Cache} {r : Root} {s : State} (h : cacheGet c r = some (s, c')) :
    (r, s) ∈ c ∧ ∀ e ∈ c', e ∈ c := by
  unfold cacheGet at h
  split at h
  · cases h
  next s' hs =>
    cases h
    have hm := AMap.mem_of_get? hs
    refine ⟨hm, fun e he => ?_⟩
    rcases List.mem_cons.1 he with rfl | he
    · exact hm
    · exact (List.mem_filter.1 he).1

/-- The state tables and cache represent exactly the states `G`. -/
structure Repr (H : Hash) (m : Mem) (G : Root → Option State) : Prop where
  hdr : ∀ r h, m.db.headers.get? r = some h → H.header h = r
  own : ∀ r st, G r = some st → H.header st.latestBlockHeader = r ∧
    m.db.headers.get? r = some st.latestBlockHeader
  snap : ∀ r st, m.db.states.get? r = some st → G r = some st
  diff : ∀ r d, m.db.diffs.get? r = some d → ∃ st p, G r = some st ∧
    G st.latestBlockHeader.parentRoot = some p ∧ ValidChild H p st ∧ d = diffOf H p st ∧
    (m.db.states.get? r = none →
      st.slot / snapshotAnchorInterval ≤ p.slot / snapshotAnchorInterval)
  cover : ∀ r st, G r = some st →
    (m.db.states.get? r).isSome = true ∨ (m.db.diffs.get? r).isSome = true
  cache : ∀ r st, (r, st) ∈ m.cache → G r = some st

theorem walk_leads {H : Hash} {m : Mem} {G : Root → Option State} (I : Repr H m G) :
    ∀ (fuel : Nat) (r : Root) (st : State) (acc : List StateDiff), G r = some st →
      st.slot + 1 ≤ fuel → ∃ snap ds, walkDiffs m.db fuel r acc = .ok (some (snap, ds ++ acc)) ∧
        Leads snap ds st ∧ ((m.db.states.get? r) = none → ds ≠ []) := by
  intro fuel
  induction fuel with
  | zero => intro r st acc _ hf; omega
  | succ fuel ih =>
    intro r st acc hG hf
    unfold walkDiffs
    cases hs : m.db.states.get? r with
    | some snap =>
      have := I.snap r snap hs
      rw [hG] at this
      cases this
      exact ⟨st, [], rfl, .refl _, by simp⟩
    | none =>
      have hc := I.cover r st hG
      rw [hs] at hc
      obtain ⟨d, hd⟩ := Option.isSome_iff_exists.1 (hc.resolve_left (by simp))
      obtain ⟨st', p, h1, h2, h3, rfl, -⟩ := I.diff r d hd
      rw [hG] at h1
      cases h1
      simp only [hd]
      have hlt := h3.slot
      have hp := h3.parent
      obtain ⟨snap, ds, hw, hl, -⟩ := ih st.latestBlockHeader.parentRoot p
        (diffOf H p st :: acc) h2 (by omega)
      refine ⟨snap, ds ++ [diffOf H p st], ?_, hl.snoc h3, by simp⟩
      have hb : (diffOf H p st).baseRoot = st.latestBlockHeader.parentRoot := hp.symm
      rw [hb, hw]
      simp

/-- A walk stays inside one snapshot window. -/
theorem walk_short {H : Hash} {m : Mem} {G : Root → Option State} (I : Repr H m G) :
    ∀ (k : Nat) (r : Root) (st : State) (acc : List StateDiff), G r = some st →
      st.slot % snapshotAnchorInterval ≤ k →
      ∃ snap ds, walkDiffs m.db (k + 1) r acc = .ok (some (snap, ds)) ∧
        ds.length ≤ acc.length + k := by
  intro k
  induction k with
  | zero =>
    intro r st acc hG hk
    unfold walkDiffs
    cases hs : m.db.states.get? r with
    | some snap => exact ⟨snap, acc, rfl, by omega⟩
    | none =>
      exfalso
      have hc := I.cover r st hG
      rw [hs] at hc
      obtain ⟨d, hd⟩ := Option.isSome_iff_exists.1 (hc.resolve_left (by simp))
      obtain ⟨st', p, h1, h2, h3, rfl, hw⟩ := I.diff r d hd
      rw [hG] at h1
      cases h1
      have hlt := h3.slot
      have hw := hw hs
      rw [snapshotAnchorInterval] at hw hk
      omega
  | succ k ih =>
    intro r st acc hG hk
    rw [walkDiffs]
    cases hs : m.db.states.get? r with
    | some snap => exact ⟨snap, acc, rfl, by omega⟩
    | none =>
      have hc := I.cover r st hG
      rw [hs] at hc
      obtain ⟨d, hd⟩ := Option.isSome_iff_exists.1 (hc.resolve_left (by simp))
      obtain ⟨st', p, h1, h2, h3, rfl, hw⟩ := I.diff r d hd
      rw [hG] at h1
      cases h1
      have hlt := h3.slot
      have hw := hw hs
      have hk' : p.slot % snapshotAnchorInterval ≤ k := by
        rw [snapshotAnchorInterval] at hw hk ⊢
        omega
      obtain ⟨snap, ds, e, hl⟩ := ih st.latestBlockHeader.parentRoot p (diffOf H p st :: acc) h2 hk'
      simp only [hd]
      have hb : (diffOf H p st).baseRoot = st.latestBlockHeader.parentRoot := h3.parent.symm
      rw [hb, e]
      refine ⟨snap, ds, rfl, ?_⟩
      simp only [List.length_cons] at hl
      omega

theorem reconstructState_eq {H : Hash} {m : Mem} {G : Root → Option State} (I : Repr H m G)
    (r : Root) (hn : m.db.states.get? r = none) : reconstructState m.db r = .ok (G r) := by
  unfold reconstructState
  cases hd : m.db.diffs.get? r with
  | none =>
    have hG : G r = none := by
      cases hG : G r with
      | none => rfl
      | some st =>
        have := I.cover r st hG
        rw [hn, hd] at this
        simp at this
    simp only [walkDiffs, hn, hd, hG]
  | some d =>
    obtain ⟨st, p, h1, h2, h3, rfl, -⟩ := I.diff r d hd
    have hf : st.slot + 1 ≤ (diffOf H p st).slot + 2 := by simp only [diffOf]; omega
    obtain ⟨snap, ds, hw, hl, hne⟩ := walk_leads I _ r st [] h1 hf
    simp only [hw, (I.own r st h1).2, List.append_nil, hl.reconstruct (hne hn), h1]

/-- Reading a state returns `G`'s and keeps the representation. -/
theorem getState_repr {H : Hash} {m : Mem} {G : Root → Option State} (I : Repr H m G) (r : Root) :
    ∃ c, getState m r = .ok (G r, { m with cache := c }) ∧ Repr H { m with cache := c } G := by
  have put : ∀ st, G r = some st → Repr H { m with cache := cachePut m.cache r st } G := by
    intro st hG
    refine ⟨I.hdr, I.own, I.snap, I.diff, I.cover, ?_⟩
    intro r' st' hm
    rcases mem_cachePut hm with h | h
    · cases h; exact hG
    · exact I.cache _ _ h
  unfold getState
  cases hc : cacheGet m.cache r with
  | some x =>
    obtain ⟨s, c⟩ := x
    obtain ⟨h1, h2⟩ := cacheGet_some hc
    have hG := I.cache r s h1
    exact ⟨c, by simp only [hG], ⟨I.hdr, I.own, I.snap, I.diff, I.cover,
      fun r' st' hm => I.cache _ _ (h2 _ hm)⟩⟩
  | none =>
    cases hs : m.db.states.get? r with
    | some s =>
      have hG := I.snap r s hs
      exact ⟨_, by simp only [hG], put s hG⟩
    | none =>
      simp only [reconstructState_eq I r hs]
      cases hG : G r with
      | none => exact ⟨m.cache, rfl, I⟩
      | some st => exact ⟨_, rfl, put st hG⟩

theorem hasState_iff {H : Hash} {m : Mem} {G : Root → Option State} (I : Repr H m G) (r : Root) :
    hasState m.db r = (G r).isSome := by
  unfold hasState
  cases hG : G r with
  | some st => have := I.cover r st hG; simpa using this
  | none =>
    have h1 : m.db.states.get? r = none := by
      cases h : m.db.states.get? r with
      | none => rfl
      | some s => rw [I.snap r s h] at hG; cases hG
    have h2 : m.db.diffs.get? r = none := by
      cases h : m.db.diffs.get? r with
      | none => rfl
      | some d => obtain ⟨st, _, h3, _⟩ := I.diff r d h; rw [h3] at hG; cases hG
    simp [h1, h2]

/-- Inserting the state of a stored block, as a valid child of a known state. -/
theorem insertState_repr {H : Hash} {m : Mem} {G : Root → Option State} (I : Repr H m G)
    {root : Root} {st p : State} (hroot : H.header st.latestBlockHeader = root)
    (hhdr : m.db.headers.get? root = some st.latestBlockHeader)
    (hp : G st.latestBlockHeader.parentRoot = some p) (hv : ValidChild H p st)
    (hfresh : G root = none ∨ G root = some st) :
    ∃ m', insertState H m root st = .ok m' ∧ m'.db.headers = m.db.headers ∧
      Repr H m' (fun r => if r = root then some st else G r) := by
  obtain ⟨c, hg, Ic⟩ := getState_repr I st.latestBlockHeader.parentRoot
  have ext : ∀ r s, G r = some s → (if r = root then some st else G r) = some s := by
    intro r s hr
    by_cases e : r = root
    · subst e; rcases hfresh with h | h
      · rw [h] at hr; cases hr
      · rw [if_pos rfl, ← h, hr]
    · rw [if_neg e, hr]
  unfold insertState
  rw [hg, hp]
  simp only [fromStates_valid hv]
  refine ⟨_, rfl, rfl, ⟨I.hdr, ?_, ?_, ?_, ?_, ?_⟩⟩
  · intro r s hs
    by_cases e : r = root
    · subst e; rw [if_pos rfl] at hs; cases hs; exact ⟨hroot, hhdr⟩
    · rw [if_neg e] at hs; exact I.own r s hs
  · intro r s hs
    simp only at hs
    split at hs
    · rw [AMap.get?_insert] at hs
      split at hs
      next e => rw [if_pos (by grind)]; exact hs
      next e => exact ext _ _ (I.snap r s hs)
    · exact ext _ _ (I.snap r s hs)
  · intro r d hd
    simp only at hd
    rw [AMap.get?_insert] at hd
    by_cases e : r = root
    · rw [if_pos (by grind)] at hd
      cases hd
      refine ⟨st, p, by rw [if_pos e], ext _ _ hp, hv, rfl, fun hn => ?_⟩
      simp only at hn
      split at hn
      · rw [AMap.get?_insert, if_pos (by grind)] at hn; cases hn
      next hlt => simpa using hlt
    · rw [if_neg (by grind)] at hd
      obtain ⟨s, q, h1, h2, h3, h4, h5⟩ := I.diff r d hd
      refine ⟨s, q, ext _ _ h1, ext _ _ h2, h3, h4, fun hn => h5 ?_⟩
      simp only at hn
      split at hn
      · rw [AMap.get?_insert, if_neg (by grind)] at hn; exact hn
      · exact hn
  · intro r s hs
    simp only
    by_cases e : r = root
    · right; rw [AMap.get?_insert, if_pos (by grind)]; rfl
    · rw [if_neg e] at hs
      rcases I.cover r s hs with h | h
      · left
        split
        · rw [AMap.get?_insert, if_neg (by grind)]; exact h
        · exact h
      · right; rw [AMap.get?_insert, if_neg (by grind)]; exact h
  · intro r s hm
    rcases mem_cachePut hm with h | h
    · cases h; rw [if_pos rfl]
    · exact ext _ _ (Ic.cache r s h)

/-- Storing a header under its own root keeps the representation. -/
theorem Repr.insertHeader {H : Hash} {m : Mem} {G : Root → Option State}
    (I : Repr H m G) (h : Header) {db' : Db}
    (hcol : ∀ h', m.db.headers.get? (H.header h) = some h' → h' = h)
    (hh : db'.headers = m.db.headers.insert (H.header h) h) (hs : db'.states = m.db.states)
    (hd : db'.diffs = m.db.diffs) : Repr H { m with db := db' } G := by
  refine ⟨?_, ?_, ?_, ?_, ?_, I.cache⟩
  · intro r h' hr
    simp only [hh] at hr
    rw [AMap.get?_insert] at hr
    split at hr
    · cases hr; grind
    · exact I.hdr r h' hr
  · intro r st hG
    obtain ⟨h1, h2⟩ := I.own r st hG
    refine ⟨h1, ?_⟩
    simp only [hh]
    rw [AMap.get?_insert]
    split
    next e => rw [hcol st.latestBlockHeader (by rw [← h2]; grind)]
    next => exact h2
  · intro r st h; simp only [hs] at h; exact I.snap r st h
  · intro r d h; simp only [hd] at h; simp only [hs]; exact I.diff r d h
  · intro r st h; simp only [hs, hd]; exact I.cover r st h

theorem Repr.frame {H : Hash} {m : Mem} {G : Root → Option State}
    (I : Repr H m G) {db' : Db}
    (hh : db'.headers = m.db.headers) (hs : db'.states = m.db.states)
    (hd : db'.diffs = m.db.diffs) : Repr H { m with db := db' } G := by
  refine ⟨?_, ?_, ?_, ?_, ?_, I.cache⟩
  · simp only [hh]; exact I.hdr
  · simp only [hh]; exact I.own
  · simp only [hs]; exact I.snap
  · simp only [hd, hs]; exact I.diff
  · simp only [hs, hd]; exact I.cover

theorem updateCheckpoints_frame {db db' : Db} {h : Root} {j f : Option Checkpoint}
    (e : updateCheckpoints db h j f = .ok db') : db'.headers = db.headers ∧
      db'.states = db.states ∧ db'.diffs = db.diffs ∧ db'.bodies = db.bodies ∧
      db'.proofs = db.proofs ∧ db'.head = h ∧ db'.justified = j.getD db.justified ∧
      db'.finalized = f.getD db.finalized := by
  unfold updateCheckpoints at e
  split at e
  · cases e
  · cases e
  · simp only at e
    split at e
    · split at e
      · cases e; simp
      · cases e; simp
    · cases e; simp

/-- The first batch does everything except pruning the live chain. -/
theorem checkpointBatch_of {db db2 : Db} {h : Root} {j f : Option Checkpoint}
    (e : checkpointBatch db h j f = .ok db2) :
    ∃ db', updateCheckpoints db h j f = .ok db' ∧ db2 = { db' with liveChain := db.liveChain } := by
  unfold checkpointBatch at e
  unfold updateCheckpoints
  split at e
  · cases e
  · cases e
  next dels ents hc =>
    have e := Except.ok.inj e
    rw [← e]
    dsimp only
    cases f with
    | none => exact ⟨_, rfl, rfl⟩
    | some c =>
      by_cases hs : c.slot > db.finalized.slot
      · refine ⟨_, if_pos hs, rfl⟩
      · refine ⟨_, if_neg hs, rfl⟩

theorem checkpointBatch_ok {db db' : Db} {h : Root} {j f : Option Checkpoint}
    (e : updateCheckpoints db h j f = .ok db') :
    checkpointBatch db h j f = .ok { db' with liveChain := db.liveChain } := by
  cases e2 : checkpointBatch db h j f with
  | ok db2 =>
    obtain ⟨db3, h1, h2⟩ := checkpointBatch_of e2
    rw [h1] at e
    rw [h2, Except.ok.inj e]
  | error z =>
    unfold updateCheckpoints at e
    unfold checkpointBatch at e2
    split at e2
    next hc => rw [hc] at e; cases e
    next hc => rw [hc] at e; cases e
    · cases e2

theorem pruneOldData_frame {db db' : Db} (e : pruneOldData db = .ok db') :
    db'.headers = db.headers ∧ db'.states = db.states ∧ db'.diffs = db.diffs ∧
      db'.bodies = db.bodies ∧ db'.head = db.head ∧ db'.blockRoots = db.blockRoots ∧
      db'.liveChain = db.liveChain := by
  unfold pruneOldData at e
  split at e
  · cases e
  · next h _ =>
    have e := Except.ok.inj e
    rw [← e]
    unfold pruneProofs pruneBelow
    generalize h.slot - proofPruningRange = c
    by_cases hc : c > db.finalized.slot ∨ c = 0
    · simp only [if_pos hc, and_self]
    · simp only [if_neg hc, and_self]

theorem root_eq (H : Hash) (b : Block) : b.root H = H.header (b.header H) := rfl

theorem stored_cons {H : Hash} {ops : List Op} {op : Op} {h : Header} (hs : stored H ops h) :
    stored H (op :: ops) h := by
  obtain ⟨sb, h | h, e⟩ := hs
  · exact ⟨sb, .inl (List.mem_cons_of_mem _ h), e⟩
  · exact ⟨sb, .inr (List.mem_cons_of_mem _ h), e⟩

theorem seen_cons {H : Hash} {anchor : State} {ops : List Op} {op : Op} {h : Header}
    (hs : seen H anchor ops h) : seen H anchor (op :: ops) h := hs.imp_right stored_cons

theorem CollisionFree.tail {H : Hash} {anchor : State} {ops : List Op} {op : Op}
    (h : CollisionFree H anchor (op :: ops)) : CollisionFree H anchor ops :=
  fun a b ha hb => h a b (seen_cons ha) (seen_cons hb)

/-- What a run keeps true about states and headers. -/
structure RunInv (H : Hash) (root : Root) (anchor : State) (ops : List Op) (m : Mem) : Prop where
  repr : Repr H m (stateOf root anchor ops)
  stored : ∀ hd, stored H ops hd → m.db.headers.get? (H.header hd) = some hd
  seen : ∀ r hd, m.db.headers.get? r = some hd → seen H anchor ops hd
  anchorRoot : H.header anchor.latestBlockHeader = root
  anchorHdr : m.db.headers.get? root = some anchor.latestBlockHeader

theorem RunInv.insertHeader {H : Hash} {root : Root} {anchor : State} {ops : List Op} {m : Mem}
    (J : RunInv H root anchor ops m) {op : Op} (hc : CollisionFree H anchor (op :: ops))
    (h : Header) (hst : Db.stored H [op] h) (honly : ∀ h', Db.stored H [op] h' → h' = h)
    (hG : stateOf root anchor (op :: ops) = stateOf root anchor ops)
    {db' : Db} (hh : db'.headers = m.db.headers.insert (H.header h) h)
    (hs : db'.states = m.db.states) (hd : db'.diffs = m.db.diffs) :
    RunInv H root anchor (op :: ops) { m with db := db' } := by
  have hsh : Db.seen H anchor (op :: ops) h := by
    obtain ⟨sb, h1 | h1, e⟩ := hst
    · exact .inr ⟨sb, .inl (by simp at h1; simp [h1]), e⟩
    · exact .inr ⟨sb, .inr (by simp at h1; simp [h1]), e⟩
  have hcol : ∀ h', m.db.headers.get? (H.header h) = some h' → h' = h := fun h' hg =>
    hc _ _ (seen_cons (J.seen _ _ hg)) hsh (J.repr.hdr _ _ hg)
  have split : ∀ h', Db.stored H (op :: ops) h' → h' = h ∨ Db.stored H ops h' := by
    rintro h' ⟨sb, h1 | h1, e⟩
    · rcases List.mem_cons.1 h1 with h1 | h1
      · exact .inl (honly _ ⟨sb, .inl (by simp [h1]), e⟩)
      · exact .inr ⟨sb, .inl h1, e⟩
    · rcases List.mem_cons.1 h1 with h1 | h1
      · exact .inl (honly _ ⟨sb, .inr (by simp [h1]), e⟩)
      · exact .inr ⟨sb, .inr h1, e⟩
  refine ⟨by rw [hG]; exact J.repr.insertHeader h hcol hh hs hd, ?_, ?_, J.anchorRoot, ?_⟩
  · intro h' hst'
    show db'.headers.get? _ = _
    rw [hh, AMap.get?_insert]
    split
    next e => rw [hc _ _ hsh (.inr hst') e]
    next e =>
      rcases split h' hst' with rfl | hst'
      · exact absurd rfl e
      · exact J.stored h' hst'
  · intro r h' hg
    have hg : db'.headers.get? r = _ := hg
    rw [hh, AMap.get?_insert] at hg
    split at hg
    · cases hg; exact hsh
    · exact seen_cons (J.seen _ _ hg)
  · show db'.headers.get? _ = _
    rw [hh, AMap.get?_insert]
    split
    next e => rw [hcol anchor.latestBlockHeader (by rw [e]; exact J.anchorHdr)]
    next => exact J.anchorHdr

theorem RunInv.frame {H : Hash} {root : Root} {anchor : State} {ops : List Op} {m m' : Mem}
    (J : RunInv H root anchor ops m) {op : Op}
    (hr : Repr H m' (stateOf root anchor (op :: ops)))
    (hh : m'.db.headers = m.db.headers)
    (h1 : ∀ sb, op ≠ Op.insertSigned sb) (h2 : ∀ sb, op ≠ Op.insertPending sb) :
    RunInv H root anchor (op :: ops) m' := by
  refine ⟨hr, ?_, ?_, J.anchorRoot, by rw [hh]; exact J.anchorHdr⟩
  · rintro hd ⟨sb, h | h, e⟩
    · rcases List.mem_cons.1 h with h | h
      · exact absurd h.symm (h1 sb)
      · rw [hh]; exact J.stored _ ⟨sb, .inl h, e⟩
    · rcases List.mem_cons.1 h with h | h
      · exact absurd h.symm (h2 sb)
      · rw [hh]; exact J.stored _ ⟨sb, .inr h, e⟩
  · intro r hd hg; rw [hh] at hg; exact seen_cons (J.seen _ _ hg)

/-- Every run keeps `RunInv`. -/
theorem run_inv {H : Hash} {a0 : State} {body : Option (List AggAtt)}
    {root : Root} {anchor : State} {ops : List Op} {m : Mem} (h : Run H a0 body root anchor ops m)
    (hc : CollisionFree H anchor ops) : RunInv H root anchor ops m := by
  induction h with
  | init hi0 hs0 =>
    next m anchor root =>
    unfold initStore at hi0
    simp only at hi0
    split at hi0
    · cases hi0
    · cases hi0
      simp only [List.cons.injEq, Prod.mk.injEq, and_true] at hs0
      obtain ⟨rfl, rfl⟩ := hs0
      refine ⟨⟨?_, ?_, ?_, ?_, ?_, ?_⟩, ?_, ?_, rfl, by simp [AMap.get?_cons]⟩
      · intro r h hr
        simp only [AMap.get?_cons, AMap.get?_nil] at hr
        split at hr
        · cases hr; grind
        · cases hr
      · intro r st hr
        simp only [stateOf] at hr
        split at hr
        · cases hr
          next e => subst e; exact ⟨rfl, by simp [AMap.get?_cons]⟩
        · cases hr
      · intro r st hr
        simp only [AMap.get?_cons, AMap.get?_nil] at hr
        simp only [stateOf]
        split at hr
        · rw [if_pos (by grind)]; exact hr
        · cases hr
      · intro r d hr; simp [AMap.get?_nil] at hr
      · intro r st hr
        simp only [stateOf] at hr
        split at hr
        next e => left; subst e; simp [AMap.get?_cons]
        · cases hr
      · intro r st hr; simp at hr
      · rintro hd ⟨sb, h | h, -⟩ <;> simp at h
      · intro r hd hr
        simp only [AMap.get?_cons, AMap.get?_nil] at hr
        split at hr
        · cases hr; exact .inl rfl
        · cases hr
  | step hr ha hs ih =>
    next root anchor ops m op m' =>
    have J := ih hc.tail
    cases op with
    | insertPending sb =>
      cases hs
      refine J.insertHeader hc (sb.block.header H) ⟨sb, .inr (by simp), rfl⟩ ?_ rfl rfl rfl rfl
      rintro h' ⟨sb', h1 | h1, e⟩
      · simp at h1
      · simp at h1; rw [← e, h1]
    | insertSigned sb =>
      cases hs
      refine J.insertHeader hc (sb.block.header H) ⟨sb, .inl (by simp), rfl⟩ ?_ rfl rfl rfl rfl
      rintro h' ⟨sb', h1 | h1, e⟩
      · simp at h1; rw [← e, h1]
      · simp at h1
    | insertState r st =>
      obtain ⟨h1, h2, ⟨p, h3, h4⟩, h5⟩ := ha
      obtain ⟨m'', e, hh, I'⟩ := insertState_repr J.repr h1 (by rw [← h1]; exact J.stored _ h2)
        h3 h4 h5
      have hs : insertState H m r st = .ok m' := hs
      rw [e] at hs
      cases hs
      exact J.frame I' hh (by simp) (by simp)
    | readState r =>
      obtain ⟨c, e, I'⟩ := getState_repr J.repr r
      have hs : (match getState m r with | .error e => .error e | .ok (_, m) => .ok m : P Mem)
        = .ok m' := hs
      rw [e] at hs
      cases hs
      exact J.frame I' rfl (by simp) (by simp)
    | checkpointBatch h j f =>
      have hs : (match checkpointBatch m.db h j f with
        | .error e => .error e | .ok db => .ok { m with db := db } : P Mem) = .ok m' := hs
      split at hs
      · cases hs
      next db2 e =>
        cases hs
        obtain ⟨db', e', rfl⟩ := checkpointBatch_of e
        obtain ⟨h1, h2, h3, -⟩ := updateCheckpoints_frame e'
        exact J.frame (J.repr.frame h1 h2 h3) h1 (by simp) (by simp)
    | updateCheckpoints h j f =>
      have hs : (match updateCheckpoints m.db h j f with
        | .error e => .error e | .ok db => .ok { m with db := db } : P Mem) = .ok m' := hs
      split at hs
      · cases hs
      next db' e =>
        cases hs
        obtain ⟨h1, h2, h3, -⟩ := updateCheckpoints_frame e
        exact J.frame (J.repr.frame h1 h2 h3) h1 (by simp) (by simp)
    | setSafeTarget r =>
      cases hs
      exact J.frame (J.repr.frame rfl rfl rfl) rfl (by simp) (by simp)
    | setTime t =>
      cases hs
      exact J.frame (J.repr.frame rfl rfl rfl) rfl (by simp) (by simp)
    | pruneOldData =>
      have hs : (match pruneOldData m.db with
        | .error e => .error e | .ok db => .ok { m with db := db } : P Mem) = .ok m' := hs
      split at hs
      · cases hs
      next db' e =>
        cases hs
        obtain ⟨h1, h2, h3, -⟩ := pruneOldData_frame e
        exact J.frame (J.repr.frame h1 h2 h3) h1 (by simp) (by simp)
    | restart =>
      cases hs
      exact J.frame ⟨J.repr.hdr, J.repr.own, J.repr.snap, J.repr.diff, J.repr.cover,
        by intro r s h; cases h⟩ rfl (by simp) (by simp)

end Verif.Db
