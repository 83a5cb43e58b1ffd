import Verif.Model.Store
/-!
# Dying in the middle of a block import

`on_block_core` writes to the database in several batches; each batch is atomic (C31) but the process
can die between two of them. After a restart only what was committed is there.
-/
namespace Verif.Node
open Verif Verif.Db

/-- What was committed last: `update_checkpoints` with the new justified checkpoint
(`crates/blockchain/src/store.rs` 687-697), `insert_signed_block` (700-702), `insert_state` (703-705),
the first batch of `update_checkpoints` in `update_head` (121-123, `crates/storage/src/store.rs`
891-899), or everything (including the live-chain pruning, 908-910). -/
inductive CrashPoint
  | justified
  | block
  | state
  | head
  | done
deriving DecidableEq

/-- `update_head` up to the first batch of `update_checkpoints`; compare `updateHead`. -/
def updateHeadCut (s : Store) : P Store :=
  let newHead := ghostHead s
  match s.getState newHead with
  | .error e => .error e
  | .ok (st, s) =>
    let finalized := match st with
      | none => none
      | some st => if (s.header st.latestFinalized.root).isSome then some st.latestFinalized
                   else none
    match Db.checkpointBatch s.mem.db newHead none finalized with
    | .error e => .error e
    | .ok db => .ok { s with mem := { s.mem with db := db } }

/-- The writes of `on_block_core` up to a crash; compare `commitBlock`. -/
def commitUpTo (H : Hash) (s : Store) (sb : SignedBlock) (st : State) (pt : CrashPoint) : P Store :=
  match raiseJustified s st with
  | .error e => .error e
  | .ok s =>
    if pt = .justified then .ok s else
    let s := insertSigned H s (sb.block.root H) sb
    if pt = .block then .ok s else
    match putState H s (sb.block.root H) st with
    | .error e => .error e
    | .ok s =>
      if pt = .state then .ok s else if pt = .head then updateHeadCut s else updateHead s

/-- `on_block_core` up to a crash; compare `onBlock`. -/
def importUpTo (E : Env) (s : Store) (sb : SignedBlock) (pt : CrashPoint) : P Store :=
  if hasState s.mem.db (sb.block.root E.H) then .ok s
  else
    match s.getState sb.block.parentRoot with
    | .error e => .error e
    | .ok (none, s) => .ok s
    | .ok (some parent, s) =>
      match checkBlock E s parent sb with
      | .error _ => .ok s
      | .ok st => commitUpTo E.H s sb st pt

/-- Die while importing a block, and start again. -/
def crash (E : Env) (s : Store) (sb : SignedBlock) (pt : CrashPoint) : P Store :=
  match importUpTo E s sb pt with
  | .error e => .error e
  | .ok s => step E s .restart

/-- Events, or a crash during an import. -/
inductive CEvent
  | ev (e : Event)
  | crash (sb : SignedBlock) (pt : CrashPoint)

def cstep (E : Env) (s : Store) : CEvent → P Store
  | .ev e => step E s e
  | .crash sb pt => crash E s sb pt

end Verif.Node
