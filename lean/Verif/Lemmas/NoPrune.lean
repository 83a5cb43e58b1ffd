import Verif.Lemmas.DbBlocks
import Verif.Lemmas.StoreInv
/-!
# Nothing is pruned in the first 21 600 slots
-/
namespace Verif.Db
open Verif

theorem seen_mono {H : Hash} {anchor : State} {ops : List Op} {op : Op} {h : Header}
    (hs : seen H anchor ops h) : seen H anchor (op :: ops) h := by
  rcases hs with h | ⟨sb, h1 | h1, e⟩
  · exact .inl h
  · exact .inr ⟨sb, .inl (List.mem_cons_of_mem _ h1), e⟩
  · exact .inr ⟨sb, .inr (List.mem_cons_of_mem _ h1), e⟩

theorem run_proofs {H : Hash} {a0 : State} {body : Option (List AggAtt)} {root : Root}
    {anchor : State} {ops : List Op} {m : Mem} (h : Run H a0 body root anchor ops m)
    (hcf : CollisionFree H anchor ops) (hsl : ∀ h, seen H anchor ops h → h.slot ≤ 21600) :
    ∀ r sb, lastBlock H ops r = some sb →
      m.db.proofs.get? (sb.block.slot, r) = some sb.proof := by
  induction h with
  | init hi0 hs0 => intro r sb h; cases h
  | step hr ha hs ih =>
    next root anchor ops m op m' =>
    have hcf' : CollisionFree H anchor ops :=
      fun a b ha hb => hcf a b (seen_mono ha) (seen_mono hb)
    have ih := ih hcf' (fun h hh => hsl h (seen_mono hh))
    have ins : ∀ (b : SignedBlock) (db' : Db),
        db'.proofs = m.db.proofs.insert (b.block.slot, b.block.root H) b.proof →
        ∀ r sb, (if r = b.block.root H then some b else lastBlock H ops r) = some sb →
          db'.proofs.get? (sb.block.slot, r) = some sb.proof := by
      intro b db' e r sb h
      rw [e, AMap.get?_insert]
      split at h
      next hr => cases h; rw [hr, if_pos rfl]
      next hr =>
        rw [if_neg]
        · exact ih r sb h
        · intro e; exact hr (Prod.mk.inj e).2.symm
    cases op with
    | insertPending sb =>
      cases hs
      exact ins sb _ rfl
    | insertSigned sb =>
      cases hs
      exact ins sb _ rfl
    | insertState r st =>
      obtain ⟨h1, h2, h3, -⟩ := insertState_db (show insertState H m r st = .ok m' from hs)
      rw [h3]; exact ih
    | readState r =>
      have hs : (match getState m r with | .error e => .error e | .ok (_, m) => .ok m : P Mem)
        = .ok m' := hs
      split at hs
      · cases hs
      next x m1 e =>
        cases hs
        rw [getState_db e]; exact ih
    | checkpointBatch h j f =>
      have hs : (match checkpointBatch m.db h j f with
        | .error e => .error e | .ok db => .ok { m with db := db } : P Mem) = .ok m' := hs
      split at hs
      · cases hs
      next db2 e =>
        cases hs
        obtain ⟨db', e', rfl⟩ := checkpointBatch_of e
        obtain ⟨h1, h2, h3, h4, h5, -⟩ := updateCheckpoints_frame e'
        show ∀ r sb, _ → db'.proofs.get? _ = _
        rw [h5]; exact ih
    | updateCheckpoints h j f =>
      have hs : (match updateCheckpoints m.db h j f with
        | .error e => .error e | .ok db => .ok { m with db := db } : P Mem) = .ok m' := hs
      split at hs
      · cases hs
      next db' e =>
        cases hs
        obtain ⟨h1, h2, h3, h4, h5, -⟩ := updateCheckpoints_frame e
        show ∀ r sb, _ → db'.proofs.get? _ = _
        rw [h5]; exact ih
    | setSafeTarget r => cases hs; exact ih
    | setTime t => cases hs; exact ih
    | restart => cases hs; exact ih
    | pruneOldData =>
      have hs : (match pruneOldData m.db with
        | .error e => .error e | .ok db => .ok { m with db := db } : P Mem) = .ok m' := hs
      split at hs
      · cases hs
      next db' e =>
        cases hs
        obtain ⟨-, hp⟩ := pruneOldData_proofs e (run_blocks hr).nodup
        intro r sb h
        show db'.proofs.get? _ = _
        rw [hp, if_neg]
        · exact ih r sb h
        · rintro ⟨c, hc, -⟩
          unfold proofCutoff at hc
          split at hc
          · cases hc
          next hd hh =>
            have := hsl hd (seen_mono ((run_inv hr hcf').seen _ _ hh))
            have h0 : hd.slot - proofPruningRange = 0 := Nat.sub_eq_zero_of_le this
            unfold effective at hc
            rw [h0, if_pos (.inr rfl)] at hc
            cases hc

end Verif.Db
