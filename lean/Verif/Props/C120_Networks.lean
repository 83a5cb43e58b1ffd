import Verif.Lemmas.GenesisFile
import Verif.Lemmas.Networks
import Verif.Props.C36_Validation
import Verif.Props.C54_CheckpointState
import Verif.Props.C119_Roots
import Verif.Props.C34_C62_Actor

/-
C120 — the genesis file identifies the network.
-/

namespace Verif.Genesis

open Verif Verif.Node Verif.Db
open Verif.Net (Bytes)

/-! ### The file -/

/-- **C120.** A key is accepted exactly if it is 52 bytes in hexadecimal, in either case, with or without `0x`; two
ways of writing a key give the same key exactly if the bytes are the same. -/
theorem C120_key (s : List Char) :
    (∀ k, parseKey s = some k ↔ ∃ b, KeyText s b ∧ k = Ssz.unle b) ∧
      ∀ s' b b', KeyText s b → KeyText s' b' → (parseKey s = parseKey s' ↔ b = b') := by
  have h1 : ∀ s k, parseKey s = some k ↔ ∃ b, KeyText s b ∧ k = Ssz.unle b := by
    intro s k
    unfold parseKey
    constructor
    · intro h
      split at h
      · cases h
      next b hb =>
        split at h
        next hl => cases h; exact ⟨b, (decode_key s b).1 ⟨hb, hl⟩, rfl⟩
        · cases h
    · rintro ⟨b, hb, rfl⟩
      obtain ⟨e, hl⟩ := (decode_key s b).2 hb
      rw [e]
      dsimp only
      rw [if_pos hl]
  refine ⟨h1 s, fun s' b b' hb hb' => ?_⟩
  rw [(h1 s _).2 ⟨b, hb, rfl⟩, (h1 s' _).2 ⟨b', hb', rfl⟩]
  refine ⟨fun e => unle_inj (hb.1.trans hb'.1.symm) (Option.some.inj e), fun e => by rw [e]⟩

theorem parseEntries_iff : ∀ (l : List (List Char × List Char)) (es : List (Nat × Nat)),
    parseEntries l = some es ↔ List.Forall₂ (fun e k => parseKey e.1 = some k.1 ∧ parseKey e.2 = some k.2) l es
  | [], es => by
    constructor
    · intro h; cases h; exact .nil
    · intro h; cases h; rfl
  | (a, p) :: l, es => by
    have ih := parseEntries_iff l
    constructor
    · intro h
      unfold parseEntries at h
      split at h
      next x y es' hx hy hes => cases h; exact .cons ⟨hx, hy⟩ ((ih _).1 hes)
      · cases h
    · intro h
      cases h with
      | @cons _ k _ es' h1 h2 =>
        unfold parseEntries
        rw [h1.1, h1.2, (ih _).2 h2]

/-- **C120.** What a file says: its time, and for the `i`-th entry a validator with index `i` and the two keys of the
entry.  A file is refused exactly if one of the keys is not written properly. -/
theorem C120_file (f : File) :
    (∀ (t : Nat) (vals : List Validator), f.parse = some (t, vals) ↔ t = f.time ∧ vals.length = f.entries.length ∧
      ∀ (i : Nat) (e : List Char × List Char) (v : Validator), f.entries[i]? = some e → vals[i]? = some v → ∃ b c, KeyText e.1 b ∧ KeyText e.2 c ∧
        v = ⟨Ssz.unle b, Ssz.unle c, i⟩) ∧
    (f.parse = none ↔ ∃ e ∈ f.entries, (∀ b, ¬ KeyText e.1 b) ∨ ∀ b, ¬ KeyText e.2 b) := by
  constructor
  · intro t vals
    unfold File.parse
    constructor
    · intro h
      split at h
      · cases h
      next es hes =>
        cases h
        have hf := (parseEntries_iff _ _).1 hes
        refine ⟨rfl, by simp [Ckpt.genesisValidators, hf.length_eq], fun i e v he hv => ?_⟩
        unfold Ckpt.genesisValidators at hv
        rw [List.getElem?_mapIdx] at hv
        obtain ⟨k, hk, rfl⟩ := Option.map_eq_some_iff.1 hv
        obtain ⟨hi, he⟩ := List.getElem?_eq_some_iff.1 he
        obtain ⟨hj, hk⟩ := List.getElem?_eq_some_iff.1 hk
        have := hf.get hi hj
        rw [List.get_eq_getElem, List.get_eq_getElem] at this
        dsimp only at this
        rw [he, hk] at this
        obtain ⟨b, b1, b2⟩ := ((C120_key _).1 _).1 this.1
        obtain ⟨c, c1, c2⟩ := ((C120_key _).1 _).1 this.2
        exact ⟨b, c, b1, c1, by rw [b2, c2]⟩
    · rintro ⟨rfl, hl, h⟩
      have hf : List.Forall₂ (fun e k => parseKey e.1 = some k.1 ∧ parseKey e.2 = some k.2) f.entries
          (vals.map (fun v => (v.attestationPubkey, v.proposalPubkey))) := by
        refine List.forall₂_iff_get.2 ⟨by simp [hl], fun i h1 h2 => ?_⟩
        obtain ⟨b, c, hb, hc, e⟩ := h i _ _ (List.getElem?_eq_getElem h1)
          (List.getElem?_eq_getElem (by simpa using h2))
        rw [List.get_eq_getElem, List.get_eq_getElem, List.getElem_map, e]
        exact ⟨((C120_key _).1 _).2 ⟨b, hb, rfl⟩, ((C120_key _).1 _).2 ⟨c, hc, rfl⟩⟩
      rw [(parseEntries_iff _ _).2 hf]
      dsimp only
      congr 2
      refine List.ext_getElem? fun i => ?_
      unfold Ckpt.genesisValidators
      rw [List.getElem?_mapIdx, List.getElem?_map]
      cases hv : vals[i]? with
      | none => rfl
      | some v =>
        have hi : i < f.entries.length := by
          rw [← hl]; exact (List.getElem?_eq_some_iff.1 hv).1
        obtain ⟨b, c, -, -, e⟩ := h i _ v (List.getElem?_eq_getElem hi) hv
        rw [e]
        rfl
  · have key : ∀ l : List (List Char × List Char), parseEntries l = none ↔
        ∃ e ∈ l, (∀ b, ¬ KeyText e.1 b) ∨ ∀ b, ¬ KeyText e.2 b := by
      have hk : ∀ s, parseKey s = none ↔ ∀ b, ¬ KeyText s b := by
        intro s
        rw [Option.eq_none_iff_forall_not_mem]
        constructor
        · exact fun h b hb => h _ (((C120_key s).1 _).2 ⟨b, hb, rfl⟩)
        · intro h k hk
          obtain ⟨b, hb, -⟩ := ((C120_key s).1 k).1 hk
          exact h b hb
      intro l
      induction l with
      | nil => simp [parseEntries]
      | cons e l ih =>
        obtain ⟨a, p⟩ := e
        rw [List.exists_mem_cons_iff, ← ih, ← hk, ← hk]
        dsimp only
        conv_lhs => unfold parseEntries
        cases parseKey a <;> cases parseKey p <;> cases parseEntries l <;> simp
    rw [← key]
    unfold File.parse
    cases parseEntries f.entries <;> simp

/-- **C120.** Checkpoint sync between networks: a state of one network is accepted by a node that was configured with
some file exactly if the file gives the same time and registry. -/
theorem C120_checkpoint {H : Hash} {f f' : File} {t t' : Nat} {vals vals' : List Validator}
    (hf : f.parse = some (t, vals)) (hf' : f'.parse = some (t', vals')) {b : Block} {bs : List Block} {s : State}
    (hc : Chain H (State.fromGenesis H t vals) (b :: bs) s) :
    Ckpt.verifyCheckpointState H (Ckpt.serveState s) t' vals' = .ok () ↔ t' = t ∧ vals' = vals := by
  have form : ∀ {f : File} {t : Nat} {vals : List Validator}, f.parse = some (t, vals) →
      ∃ es, vals = Ckpt.genesisValidators es := by
    intro f t vals hf
    unfold File.parse at hf
    split at hf
    · cases hf
    · cases hf; exact ⟨_, rfl⟩
  obtain ⟨es, rfl⟩ := form hf
  obtain ⟨es', rfl⟩ := form hf'
  constructor
  · intro h
    obtain ⟨h1, h2⟩ := Ckpt.C54_registry _ _ _ _ h
    have h1 : s.genesisTime = t' := h1
    have h2 : s.validators = _ := h2
    rw [chain_validators hc] at h2
    rw [Ckpt.chain_genesisTime hc] at h1
    exact ⟨h1.symm, h2.symm⟩
  · rintro ⟨rfl, e⟩
    rw [e]
    exact (Ckpt.C68_honest_accepted hc).1

/-- **C120.** Different times or registries have different genesis blocks, unless two inputs hashed for them collide.
(4096 is the limit of the registry; a longer one stops the node at the start.) -/
theorem C120_genesis_root {h : Nat → Nat → Nat} {t t' : Nat} {vals vals' : List Validator}
    (hv : vals.length ≤ 4096)
    (hs : Merkle.Safe h (Merkle.stateTree (State.fromGenesis (Merkle.treeHash h) t vals))
      (Merkle.stateTree (State.fromGenesis (Merkle.treeHash h) t' vals')))
    (hh : Merkle.Safe h
      (Merkle.headerTree (genesisHeader (Merkle.treeHash h) (State.fromGenesis (Merkle.treeHash h) t vals)))
      (Merkle.headerTree (genesisHeader (Merkle.treeHash h) (State.fromGenesis (Merkle.treeHash h) t' vals'))))
    (e : (Merkle.treeHash h).header (genesisHeader (Merkle.treeHash h) (State.fromGenesis (Merkle.treeHash h) t vals))
      = (Merkle.treeHash h).header
          (genesisHeader (Merkle.treeHash h) (State.fromGenesis (Merkle.treeHash h) t' vals'))) :
    t = t' ∧ vals = vals' := by
  have e1 := congrArg Header.stateRoot (Merkle.headerTree_same ⟨e, hh⟩)
  have e2 := Merkle.C119_states _ _ ⟨by simp [State.fromGenesis], by simp [State.fromGenesis], hv,
    by simp [State.fromGenesis], by simp [State.fromGenesis]⟩ e1 hs
  exact ⟨congrArg State.genesisTime e2, congrArg State.validators e2⟩

/-! ### Nodes of two networks -/

section
variable {c c' : Ctx} {t t' : Nat} {vals vals' : List Validator} {bs bs' : List Block} {a0 a0' : State}
  {body body' : Option (List AggAtt)} {evs evs' : List Event} {a a' : Actor}

theorem networks_same (hE : c'.E = c.E) (ho : ∀ l, (c.order l).Perm l) (ho' : ∀ l, (c'.order l).Perm l)
    (W : World c.E t vals bs a0 (Either c.E.H (State.fromGenesis c.E.H t vals) (State.fromGenesis c.E.H t' vals')
      bs bs' evs evs'))
    (W' : World c.E t' vals' bs' a0' (Either c.E.H (State.fromGenesis c.E.H t vals)
      (State.fromGenesis c.E.H t' vals') bs bs' evs evs'))
    (hg : c.E.H.state (State.fromGenesis c.E.H t vals) = c.E.H.state (State.fromGenesis c.E.H t' vals') →
      State.fromGenesis c.E.H t vals = State.fromGenesis c.E.H t' vals')
    (h : AReach c a0 body evs a) (h' : AReach c' a0' body' evs' a') {r x x' : Root} {n n' : Nat}
    (hb : Back a.store.mem.db.headers r n x) (hx : hasState a.store.mem.db x = true)
    (hb' : Back a'.store.mem.db.headers r n' x') (hx' : hasState a'.store.mem.db x' = true) :
    t = t' ∧ vals = vals' := by
  obtain ⟨E, o', g'⟩ := c'
  have hE : E = c.E := hE
  subst hE
  obtain ⟨rank, hR⟩ := W.acyclic
  obtain ⟨root, anchor, ops, -, I⟩ := areach_ainv ho W hR h (fun e he => (eventK_known e he).mono fun _ => .inl)
  obtain ⟨root', anchor', ops', -, I'⟩ := areach_ainv (c := ⟨c.E, o', g'⟩) ho' W' hR h'
    (fun e he => (eventK_known e he).mono fun _ => .inr)
  obtain ⟨st, e1⟩ := (I.node.hasState_iff W _).1 hx
  obtain ⟨st', e2⟩ := (I'.node.hasState_iff W' _).1 hx'
  have d := back_descends W I.node hb (state_descends W I.node _ _ _ (Nat.le_refl _) e1)
  have d' := back_descends W' I'.node hb' (state_descends W' I'.node _ _ _ (Nat.le_refl _) e2)
  have e := descends_unique W.headerNZ W.collisionFree W.genesis W'.genesis rfl rfl d _ rfl d'
  have e := hg (congrArg Header.stateRoot e)
  exact ⟨congrArg State.genesisTime e, congrArg State.validators e⟩

/-- **C120.** Two nodes, of two networks, go through anything, including messages of the other network.  If they have
imported a common block, the networks have the same genesis time and the same validators. -/
theorem C120_blocks (hE : c'.E = c.E) (ho : ∀ l, (c.order l).Perm l) (ho' : ∀ l, (c'.order l).Perm l)
    (W : World c.E t vals bs a0 (Either c.E.H (State.fromGenesis c.E.H t vals) (State.fromGenesis c.E.H t' vals')
      bs bs' evs evs'))
    (W' : World c.E t' vals' bs' a0' (Either c.E.H (State.fromGenesis c.E.H t vals)
      (State.fromGenesis c.E.H t' vals') bs bs' evs evs'))
    (hg : c.E.H.state (State.fromGenesis c.E.H t vals) = c.E.H.state (State.fromGenesis c.E.H t' vals') →
      State.fromGenesis c.E.H t vals = State.fromGenesis c.E.H t' vals')
    (h : AReach c a0 body evs a) (h' : AReach c' a0' body' evs' a') {r : Root}
    (hx : hasState a.store.mem.db r = true) (hx' : hasState a'.store.mem.db r = true) :
    t = t' ∧ vals = vals' := by
  have here : ∀ {c : Ctx} {t : Nat} {vals : List Validator} {bs : List Block} {a0 : State}
      {body : Option (List AggAtt)} {evs : List Event} {a : Actor} {K : Header → Prop}, (∀ l, (c.order l).Perm l) →
      World c.E t vals bs a0 K → (∀ e ∈ evs, EventK c.E.H K e) → AReach c a0 body evs a →
      hasState a.store.mem.db r = true → Back a.store.mem.db.headers r 0 r := by
    intro c t vals bs a0 body evs a K ho W hk h hx
    obtain ⟨rank, hR⟩ := W.acyclic
    obtain ⟨root, anchor, ops, -, I⟩ := areach_ainv ho W hR h hk
    obtain ⟨st, e⟩ := (I.node.hasState_iff W _).1 hx
    exact .here (I.node.tree.own _ _ e).2
  refine networks_same hE ho ho' W W' hg h h' (here ho W (fun e he => (eventK_known e he).mono fun _ => .inl) h hx) hx
    (here (vals := vals') (bs := bs') ho' (hE ▸ W') (fun e he => ?_) h' hx') hx'
  rw [hE]
  exact (eventK_known e he).mono fun _ => .inr

/-- **C120.** The same for votes: no vote passes the checks of nodes of two networks, even if they keep blocks of the
other network while they wait for the parents. -/
theorem C120_votes (hE : c'.E = c.E) (ho : ∀ l, (c.order l).Perm l) (ho' : ∀ l, (c'.order l).Perm l)
    (W : World c.E t vals bs a0 (Either c.E.H (State.fromGenesis c.E.H t vals) (State.fromGenesis c.E.H t' vals')
      bs bs' evs evs'))
    (W' : World c.E t' vals' bs' a0' (Either c.E.H (State.fromGenesis c.E.H t vals)
      (State.fromGenesis c.E.H t' vals') bs bs' evs evs'))
    (hg : c.E.H.state (State.fromGenesis c.E.H t vals) = c.E.H.state (State.fromGenesis c.E.H t' vals') →
      State.fromGenesis c.E.H t vals = State.fromGenesis c.E.H t' vals')
    (h : AReach c a0 body evs a) (h' : AReach c' a0' body' evs' a') {d : AttData}
    (hd : validateData a.store d = .ok (.ok ())) (hd' : validateData a'.store d = .ok (.ok ())) :
    t = t' ∧ vals = vals' := by
  have fin : ∀ {c : Ctx} {t : Nat} {vals : List Validator} {bs : List Block} {a0 : State}
      {body : Option (List AggAtt)} {evs : List Event} {a : Actor} {K : Header → Prop}, (∀ l, (c.order l).Perm l) →
      World c.E t vals bs a0 K → (∀ e ∈ evs, EventK c.E.H K e) → AReach c a0 body evs a →
      hasState a.store.mem.db a.store.mem.db.finalized.root = true := by
    intro c t vals bs a0 body evs a K ho W hk h
    obtain ⟨rank, hR⟩ := W.acyclic
    obtain ⟨root, anchor, ops, -, I⟩ := areach_ainv ho W hR h hk
    obtain ⟨st, e, -⟩ := I.node.cp.fin
    exact (I.node.hasState_iff W _).2 ⟨st, e⟩
  obtain ⟨n, hn⟩ := (C36_accepted_is_sound _ _ hd).finalHead
  obtain ⟨n', hn'⟩ := (C36_accepted_is_sound _ _ hd').finalHead
  refine networks_same hE ho ho' W W' hg h h' hn (fin ho W (fun e he => (eventK_known e he).mono fun _ => .inl) h) hn'
    (fin (vals := vals') (bs := bs') ho' (hE ▸ W') (fun e he => ?_) h')
  rw [hE]
  exact (eventK_known e he).mono fun _ => .inr

end

/-! ### Instances -/

/-- A key in capitals and with `0x`; one digit less, or a letter that is no digit, is refused. -/
example : parseKey ('0' :: 'x' :: List.replicate 104 'A') = parseKey (List.replicate 104 'a') ∧
    parseKey (List.replicate 104 'a') ≠ none ∧ parseKey (List.replicate 103 'a') = none ∧
    parseKey (List.replicate 104 'g') = none ∧
    parseKey ('0' :: 'x' :: '0' :: 'x' :: List.replicate 104 'a') = none := by decide +kernel

/-- Two validators who share a key for votes. -/
example : (⟨7, [(List.replicate 104 '0', '0' :: '1' :: List.replicate 102 '0'),
      ('0' :: 'x' :: List.replicate 104 '0', 'F' :: 'f' :: List.replicate 102 '0')]⟩ : File).parse
    = some (7, [⟨0, 1, 0⟩, ⟨0, 255, 1⟩]) := by decide +kernel

namespace Witness
open Verif.Witness Verif.Node.Witness

/-- A toy hash that tells genesis times apart. -/
def nH : Hash := { wH with state := fun s => s.genesisTime + 1, header := fun h => 1 + 10 * h.slot + h.stateRoot }

def nCtx : Ctx := ⟨{ wE with H := nH }, id, fun _ _ => []⟩

/-- The networks of the times 0 and 1. -/
def nG (t : Nat) : State := State.fromGenesis nH t wVals

def nBlock (t : Nat) : Block := ⟨1, 1, t + 2, t + 1, []⟩

/-- Every node hears the first block of both networks. -/
def nEvs : List Event := [.block (sgn (nBlock 1)), .block (sgn (nBlock 0)), .tick 32000 false]

def nStart (t : Nat) : Actor := (Actor.init nCtx (nG t) (some [])).toOption.getD clockActor

def nEnd (t : Nat) : Actor := (crun nCtx (nStart t) nEvs).toOption.getD clockActor

theorem ok_get {α : Type} {x : P α} (d : α) (h : isOk x = true) : x = .ok (x.toOption.getD d) := by
  cases x with
  | ok a => rfl
  | error e => cases h

theorem n_reach (t : Nat) (h1 : isOk (Actor.init nCtx (nG t) (some [])) = true)
    (h2 : isOk (crun nCtx (nStart t) nEvs) = true) : AReach nCtx (nG t) (some []) nEvs (nEnd t) := by
  have := (AReach.init (ok_get clockActor h1)).run (crun_arun (ok_get clockActor h2))
  rwa [List.append_nil] at this

def nList : List Header := [genesisHeader nH (nG 0), genesisHeader nH (nG 1), (nBlock 0).header nH, (nBlock 1).header nH]

theorem n_mem (x : Header) (h : Either nH (nG 0) (nG 1) [] [] nEvs nEvs x) : x ∈ nList := by
  have key : ∀ t, t = 0 ∨ t = 1 → Known nH (nG t) [] nEvs x → x ∈ nList := by
    intro t ht h
    rcases h with rfl | ⟨b, hb, -⟩ | ⟨sb, hs, rfl⟩
    · rcases ht with rfl | rfl <;> simp [nList]
    · cases hb
    · simp only [Node.Arrived, nEvs, List.mem_cons, List.not_mem_nil, or_false, reduceCtorEq,
        Event.block.injEq, or_self] at hs
      rcases hs with rfl | rfl <;> simp [nList, sgn]
  exact h.elim (key 0 (.inl rfl)) (key 1 (.inr rfl))

theorem n_world (t : Nat) (ht : t = 0 ∨ t = 1) :
    World nCtx.E t wVals [] (nG t) (Either nH (nG 0) (nG 1) [] [] nEvs nEvs) where
  chain := .nil
  headerNZ x := by show 1 + 10 * x.slot + x.stateRoot ≠ 0; omega
  stateNZ s := Nat.succ_ne_zero _
  genesis := by rcases ht with rfl | rfl; exact .inl (.inl rfl); exact .inr (.inl rfl)
  old b hb := by cases hb
  collisionFree x y hx hy := by
    have : ∀ x ∈ nList, ∀ y ∈ nList, nH.header x = nH.header y → x = y := by decide +kernel
    exact this x (n_mem x hx) y (n_mem y hy)
  acyclic := ⟨id, fun x hx => by
    have : ∀ x ∈ nList, x.parentRoot < nH.header x := by decide +kernel
    exact this x (n_mem x hx)⟩

/-- Both nodes meet the hypotheses; each has imported its own block, and keeps that of the other network without
importing it; a vote for the block of one network is accepted there and not in the other. -/
theorem C120_instance :
    (AReach nCtx (nG 0) (some []) nEvs (nEnd 0) ∧ AReach nCtx (nG 1) (some []) nEvs (nEnd 1)) ∧
    (hasState (nEnd 0).store.mem.db 12 = true ∧ hasState (nEnd 0).store.mem.db 13 = false ∧
      (nEnd 0).store.mem.db.headers.has 13 = true) ∧
    (hasState (nEnd 1).store.mem.db 13 = true ∧ hasState (nEnd 1).store.mem.db 12 = false) ∧
    (let d : AttData := ⟨1, ⟨12, 1⟩, ⟨12, 1⟩, ⟨2, 0⟩⟩
     isOk (validateData (nEnd 0).store d) = true ∧
      (match validateData (nEnd 0).store d with | .ok (.ok ()) => true | _ => false) = true ∧
      (match validateData (nEnd 1).store d with | .ok (.ok ()) => true | _ => false) = false) := by
  refine ⟨⟨n_reach 0 (by decide +kernel) (by decide +kernel), n_reach 1 (by decide +kernel) (by decide +kernel)⟩, ?_⟩
  decide +kernel

/-- What C120 says of them. -/
example (r : Root) : ¬ (hasState (nEnd 0).store.mem.db r = true ∧ hasState (nEnd 1).store.mem.db r = true) :=
  fun h => absurd (C120_blocks (t := 0) (t' := 1) rfl (fun _ => .refl _) (fun _ => .refl _) (n_world 0 (.inl rfl))
    (n_world 1 (.inr rfl)) (fun e => absurd e (by decide)) C120_instance.1.1 C120_instance.1.2 h.1 h.2).1 (by decide)

end Witness

end Verif.Genesis
