import Verif.Lemmas.Db
/-!
# Lemmas about stored blocks
-/
namespace Verif.Db
open Verif

/-- The last block inserted under a root (`ops` newest first). -/
def lastBlock (H : Hash) : List Op → Root → Option SignedBlock
  | [], _ => none
  | .insertPending sb :: ops, r => if r = sb.block.root H then some sb else lastBlock H ops r
  | .insertSigned sb :: ops, r => if r = sb.block.root H then some sb else lastBlock H ops r
  | _ :: ops, r => lastBlock H ops r

/-- A pruning call came after the last insertion under this root. -/
def prunedSince (H : Hash) : List Op → Root → Prop
  | [], _ => False
  | .insertPending sb :: ops, r => r ≠ sb.block.root H ∧ prunedSince H ops r
  | .insertSigned sb :: ops, r => r ≠ sb.block.root H ∧ prunedSince H ops r
  | .pruneOldData :: _, _ => True
  | _ :: ops, r => prunedSince H ops r

/-- What the block tables hold. -/
structure BlockInv (H : Hash) (root : Root) (anchor : State) (body : Option (List AggAtt))
    (ops : List Op) (m : Mem) : Prop where
  nodup : m.db.proofs.keys.Nodup
  hdr : ∀ r sb, lastBlock H ops r = some sb → m.db.headers.get? r = some (sb.block.header H)
  bodyTab : ∀ r sb, lastBlock H ops r = some sb → H.body sb.block.body ≠ H.body [] →
    m.db.bodies.get? r = some sb.block.body
  proof : ∀ r sb, lastBlock H ops r = some sb →
    m.db.proofs.get? (sb.block.slot, r) = some sb.proof ∨
      (prunedSince H ops r ∧ m.db.proofs.get? (sb.block.slot, r) = none)
  noProof : ∀ r s, lastBlock H ops r = none → m.db.proofs.get? (s, r) = none
  absent : ∀ r, lastBlock H ops r = none → r ≠ root → m.db.headers.get? r = none
  anchorHdr : lastBlock H ops root = none →
    m.db.headers.get? root = some anchor.latestBlockHeader ∧ m.db.bodies.get? root = body

theorem BlockInv.frame {H : Hash} {root : Root} {anchor : State} {body : Option (List AggAtt)}
    {ops : List Op} {m m' : Mem} {op : Op} (B : BlockInv H root anchor body ops m)
    (h1 : m'.db.headers = m.db.headers) (h2 : m'.db.bodies = m.db.bodies)
    (h3 : m'.db.proofs = m.db.proofs) (h4 : lastBlock H (op :: ops) = lastBlock H ops)
    (h5 : prunedSince H (op :: ops) = prunedSince H ops) :
    BlockInv H root anchor body (op :: ops) m' := by
  refine ⟨?_, ?_, ?_, ?_, ?_, ?_, ?_⟩
  · rw [h3]; exact B.nodup
  · rw [h1, h4]; exact B.hdr
  · rw [h2, h4]; exact B.bodyTab
  · rw [h3, h4, h5]; exact B.proof
  · rw [h3, h4]; exact B.noProof
  · rw [h1, h4]; exact B.absent
  · rw [h1, h2, h4]; exact B.anchorHdr

theorem BlockInv.insert {H : Hash} {root : Root} {anchor : State} {body : Option (List AggAtt)}
    {ops : List Op} {m : Mem} {op : Op} (B : BlockInv H root anchor body ops m) (sb : SignedBlock)
    (hl : ∀ r, lastBlock H (op :: ops) r =
      if r = sb.block.root H then some sb else lastBlock H ops r)
    (hp : ∀ r, prunedSince H (op :: ops) r = (r ≠ sb.block.root H ∧ prunedSince H ops r))
    {db' : Db} (h1 : db'.headers = (writeSignedBlock H m.db (sb.block.root H) sb).headers)
    (h2 : db'.bodies = (writeSignedBlock H m.db (sb.block.root H) sb).bodies)
    (h3 : db'.proofs = (writeSignedBlock H m.db (sb.block.root H) sb).proofs) :
    BlockInv H root anchor body (op :: ops) { m with db := db' } := by
  have h1 : db'.headers = m.db.headers.insert (sb.block.root H) (sb.block.header H) := h1
  have h2 : db'.bodies = if H.body sb.block.body ≠ H.body [] then
    m.db.bodies.insert (sb.block.root H) sb.block.body else m.db.bodies := h2
  have h3 : db'.proofs = m.db.proofs.insert (sb.block.slot, sb.block.root H) sb.proof := h3
  generalize sb.block.root H = rt at *
  refine ⟨?_, ?_, ?_, ?_, ?_, ?_, ?_⟩
  · simp only [h3]; exact AMap.nodup_insert B.nodup _ _
  · intro r x hx
    simp only [h1, AMap.get?_insert]
    rw [hl] at hx
    split at hx
    next e => cases hx; rw [if_pos (by grind)]
    next e => rw [if_neg (by grind)]; exact B.hdr r x hx
  · intro r x hx hb
    simp only [h2]
    rw [hl] at hx
    split at hx
    next e => cases hx; rw [if_pos hb, AMap.get?_insert, if_pos (by grind)]
    next e =>
      split
      · rw [AMap.get?_insert, if_neg (by grind)]; exact B.bodyTab r x hx hb
      · exact B.bodyTab r x hx hb
  · intro r x hx
    simp only [h3, AMap.get?_insert, hp]
    rw [hl] at hx
    split at hx
    next e => cases hx; left; rw [if_pos (by grind)]
    next e =>
      rw [if_neg (by grind)]
      rcases B.proof r x hx with h | ⟨h, h'⟩
      · exact .inl h
      · exact .inr ⟨⟨e, h⟩, h'⟩
  · intro r s hx
    rw [hl] at hx
    split at hx
    · cases hx
    next e =>
      simp only [h3, AMap.get?_insert]
      rw [if_neg (by grind)]
      exact B.noProof r s hx
  · intro r hx hr
    rw [hl] at hx
    split at hx
    · cases hx
    next e =>
      simp only [h1, AMap.get?_insert]
      rw [if_neg (by grind)]
      exact B.absent r hx hr
  · intro hx
    rw [hl] at hx
    split at hx
    · cases hx
    next e =>
      obtain ⟨g1, g2⟩ := B.anchorHdr hx
      refine ⟨by simp only [h1, AMap.get?_insert]; rw [if_neg (by grind)]; exact g1, ?_⟩
      show db'.bodies.get? _ = _
      rw [h2]
      split
      · rw [AMap.get?_insert, if_neg (by grind)]; exact g2
      · exact g2

theorem getState_db {m m' : Mem} {r : Root} {x : Option State} (h : getState m r = .ok (x, m')) :
    m'.db = m.db := by
  unfold getState at h
  split at h
  · cases h; rfl
  · split at h
    · cases h; rfl
    · split at h
      · cases h
      · cases h; rfl
      · cases h; rfl

theorem insertState_db {H : Hash} {m m' : Mem} {r : Root} {st : State}
    (h : insertState H m r st = .ok m') : m'.db.headers = m.db.headers ∧
      m'.db.bodies = m.db.bodies ∧ m'.db.proofs = m.db.proofs ∧ m'.db.head = m.db.head ∧
      m'.db.blockRoots = m.db.blockRoots ∧ m'.db.liveChain = m.db.liveChain ∧
      m'.db.justified = m.db.justified ∧ m'.db.finalized = m.db.finalized := by
  unfold insertState at h
  split at h
  · cases h
  · cases h
  next p m1 e =>
    have := getState_db e
    simp only at h
    split at h
    · cases h
    · cases h
      simp [this]

/-- A cut-off is effective when positive and not above the finalized slot. -/
def effective (fin c : Nat) : Option Nat := if c > fin ∨ c = 0 then none else some c

/-- The cut-off below which `prune_old_data` removes proofs: `tip - 21600`, when that is positive
and not above the finalized slot. -/
def proofCutoff (db : Db) : Option Nat :=
  match db.headers.get? db.head with
  | none => none
  | some h => effective db.finalized.slot (h.slot - proofPruningRange)

theorem pruneBelow_proofs (db : Db) (fin c : Nat) (hn : db.proofs.keys.Nodup) :
    (pruneBelow db fin c).proofs.keys.Nodup ∧
    ∀ k, (pruneBelow db fin c).proofs.get? k =
      if (∃ c', effective fin c = some c' ∧ k.1 < c') then none else db.proofs.get? k := by
  unfold pruneBelow effective
  by_cases hc : c > fin ∨ c = 0
  · simp only [if_pos hc]
    refine ⟨hn, fun k => ?_⟩
    rw [if_neg]
    rintro ⟨c, h, -⟩
    cases h
  · simp only [if_neg hc]
    refine ⟨AMap.nodup_filter hn _, fun k => ?_⟩
    rw [AMap.get?_filter hn]
    by_cases hk : k.1 < c
    · rw [if_pos ⟨c, rfl, hk⟩]
      cases db.proofs.get? k with
      | none => rfl
      | some v => simp [hk]
    · rw [if_neg (by rintro ⟨c', h, h2⟩; cases h; exact hk h2)]
      cases db.proofs.get? k with
      | none => rfl
      | some v => simp [hk]

theorem pruneOldData_proofs {db db' : Db} (e : pruneOldData db = .ok db')
    (hn : db.proofs.keys.Nodup) : db'.proofs.keys.Nodup ∧
    ∀ k, db'.proofs.get? k =
      if (∃ c, proofCutoff db = some c ∧ k.1 < c) then none else db.proofs.get? k := by
  unfold pruneOldData at e
  unfold proofCutoff
  split at e
  · cases e
  next h hh =>
    have e := Except.ok.inj e
    rw [← e]
    simp only [hh]
    exact pruneBelow_proofs db _ _ hn

theorem run_blocks {H : Hash} {a0 : State} {body : Option (List AggAtt)}
    {root : Root} {anchor : State} {ops : List Op} {m : Mem}
    (h : Run H a0 body root anchor ops m) : BlockInv H root anchor body ops m := by
  induction h with
  | init hi0 hs0 =>
    next m anchor root =>
    unfold initStore at hi0
    simp only at hi0
    split at hi0
    · cases hi0
    · cases hi0
      simp only [List.cons.injEq, Prod.mk.injEq, and_true] at hs0
      obtain ⟨rfl, rfl⟩ := hs0
      refine ⟨by simp [AMap.keys], by simp [lastBlock], by simp [lastBlock], by simp [lastBlock],
        by simp [AMap.get?_nil], ?_, ?_⟩
      · intro r _ hr
        simp only [AMap.get?_cons, AMap.get?_nil]
        rw [if_neg (by grind)]
      · intro _
        refine ⟨by simp [AMap.get?_cons], ?_⟩
        cases body
        · rfl
        · simp [AMap.get?_cons]
  | step hr ha hs ih =>
    next root anchor ops m op m' =>
    cases op with
    | insertPending sb =>
      cases hs
      exact ih.insert sb (fun r => rfl) (fun r => rfl) rfl rfl rfl
    | insertSigned sb =>
      cases hs
      exact ih.insert sb (fun r => rfl) (fun r => rfl) rfl rfl rfl
    | insertState r st =>
      obtain ⟨h1, h2, h3, -⟩ := insertState_db (show insertState H m r st = .ok m' from hs)
      exact ih.frame h1 h2 h3 rfl rfl
    | readState r =>
      have hs : (match getState m r with | .error e => .error e | .ok (_, m) => .ok m : P Mem)
        = .ok m' := hs
      split at hs
      · cases hs
      next x m1 e =>
        cases hs
        have := getState_db e
        exact ih.frame (by rw [this]) (by rw [this]) (by rw [this]) rfl rfl
    | checkpointBatch h j f =>
      have hs : (match checkpointBatch m.db h j f with
        | .error e => .error e | .ok db => .ok { m with db := db } : P Mem) = .ok m' := hs
      split at hs
      · cases hs
      next db2 e =>
        cases hs
        obtain ⟨db', e', rfl⟩ := checkpointBatch_of e
        obtain ⟨h1, h2, h3, h4, h5, -⟩ := updateCheckpoints_frame e'
        exact ih.frame h1 h4 h5 rfl rfl
    | updateCheckpoints h j f =>
      have hs : (match updateCheckpoints m.db h j f with
        | .error e => .error e | .ok db => .ok { m with db := db } : P Mem) = .ok m' := hs
      split at hs
      · cases hs
      next db' e =>
        cases hs
        obtain ⟨h1, h2, h3, h4, h5, -⟩ := updateCheckpoints_frame e
        exact ih.frame h1 h4 h5 rfl rfl
    | setSafeTarget r => cases hs; exact ih.frame rfl rfl rfl rfl rfl
    | setTime t => cases hs; exact ih.frame rfl rfl rfl rfl rfl
    | restart => cases hs; exact ih.frame rfl rfl rfl rfl rfl
    | pruneOldData =>
      have hs : (match pruneOldData m.db with
        | .error e => .error e | .ok db => .ok { m with db := db } : P Mem) = .ok m' := hs
      split at hs
      · cases hs
      next db' e =>
        cases hs
        obtain ⟨h1, -, -, h2, -⟩ := pruneOldData_frame e
        obtain ⟨hn, hp⟩ := pruneOldData_proofs e ih.nodup
        have hl : lastBlock H (.pruneOldData :: ops) = lastBlock H ops := rfl
        refine ⟨hn, by simp only [h1, hl]; exact ih.hdr, by simp only [h2, hl]; exact ih.bodyTab,
          ?_, ?_, by simp only [h1, hl]; exact ih.absent,
          by simp only [h1, h2, hl]; exact ih.anchorHdr⟩
        · intro r sb hsb
          simp only [hp]
          split
          · exact .inr ⟨trivial, rfl⟩
          · rcases ih.proof r sb hsb with h | ⟨-, h⟩
            · exact .inl h
            · exact .inr ⟨trivial, h⟩
        · intro r s hsb
          simp only [hp]
          split
          · rfl
          · exact ih.noProof r s hsb

end Verif.Db
