import Verif.Model.Db
import Verif.Model.StateTransition
/-!
# Specification vocabulary for the store
-/
namespace Verif.Db
open Verif

/-- `c` is a possible post-state of a child block of the block whose post-state is `p`: a later
slot, same configuration and validators, and a history that extends `p`'s by the parent root and
one zero per skipped slot. -/
structure ValidChild (H : Hash) (p c : State) : Prop where
  slot : p.slot < c.slot
  time : c.genesisTime = p.genesisTime
  vals : c.validators = p.validators
  hist : c.historicalBlockHashes = p.historicalBlockHashes ++
    H.header p.latestBlockHeader :: List.replicate (c.slot - p.slot - 1) 0
  histLen : c.historicalBlockHashes.length ≤ historicalRootsLimit
  parent : c.latestBlockHeader.parentRoot = H.header p.latestBlockHeader

/-- The state of block `r` according to the calls made so far (newest first): the last one inserted
for it, or the anchor's. -/
def stateOf (anchorRoot : Root) (anchor : State) : List Op → Root → Option State
  | [], r => if r = anchorRoot then some anchor else none
  | .insertState root st :: ops, r => if r = root then some st else stateOf anchorRoot anchor ops r
  | _ :: ops, r => stateOf anchorRoot anchor ops r

/-- A block with this header has been stored, pending or not. -/
def stored (H : Hash) (ops : List Op) (h : Header) : Prop :=
  ∃ sb, (Op.insertSigned sb ∈ ops ∨ Op.insertPending sb ∈ ops) ∧ sb.block.header H = h

/-- The headers the store has been given: the anchor's and those of the stored blocks. -/
def seen (H : Hash) (anchor : State) (ops : List Op) (h : Header) : Prop :=
  h = anchor.latestBlockHeader ∨ stored H ops h

/-- No two headers given to the store share a root (collision resistance of the header hash). -/
def CollisionFree (H : Hash) (anchor : State) (ops : List Op) : Prop :=
  ∀ a b, seen H anchor ops a → seen H anchor ops b → H.header a = H.header b → a = b

/-- `HAnc hs r h`: `r` is `h` or an ancestor of `h` through stored headers with strictly decreasing
slots. -/
inductive HAnc (hs : AMap Root Header) : Root → Root → Prop
  | self {h hd} : hs.get? h = some hd → HAnc hs h h
  | up {r h hd pd} : hs.get? h = some hd → hs.get? hd.parentRoot = some pd → pd.slot < hd.slot →
      HAnc hs r hd.parentRoot → HAnc hs r h

/-- The rules the callers follow. `ops` are the calls made before, newest first.
* a state is inserted under its block's root, after the block, once, and as a child of a state
  already inserted;
* a new head descends from the anchor. -/
def Allowed (H : Hash) (anchorRoot : Root) (anchor : State) (ops : List Op) (m : Mem) : Op → Prop
  | .insertState root st =>
    H.header st.latestBlockHeader = root ∧ stored H ops st.latestBlockHeader ∧
    (∃ p, stateOf anchorRoot anchor ops st.latestBlockHeader.parentRoot = some p ∧
      ValidChild H p st) ∧
    (stateOf anchorRoot anchor ops root = none ∨ stateOf anchorRoot anchor ops root = some st)
  | .updateCheckpoints head _ _ => HAnc m.db.headers anchorRoot head
  | .checkpointBatch head _ _ => HAnc m.db.headers anchorRoot head
  | _ => True

/-- A history of storage calls from a fresh store (newest first). -/
inductive Run (H : Hash) (anchor0 : State) (body : Option (List AggAtt)) :
    Root → State → List Op → Mem → Prop
  | init {m anchor root} : initStore H anchor0 body = .ok m →
      m.db.states = [(root, anchor)] → Run H anchor0 body root anchor [] m
  | step {root anchor ops m op m'} : Run H anchor0 body root anchor ops m →
      Allowed H root anchor ops m op → step H m op = .ok m' →
      Run H anchor0 body root anchor (op :: ops) m'

end Verif.Db
