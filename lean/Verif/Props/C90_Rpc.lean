import Verif.Model.Rpc
import Verif.Props.C53_Serve
/-!
# C90: looking up blocks over HTTP

A block can be asked for by its root or by a slot. By slot, the answer is the block of the canonical
chain in that slot. The head itself cannot be found by its slot.
-/
namespace Verif.Rpc
open Verif Verif.Db Verif.Node

/-! ## Reading the identifier -/

/-- A slot in decimal notation. -/
def decimal (n : Nat) : List Char := (toString n).toList

/-- The digits of a root in hexadecimal notation, `n` of them. -/
def hexDigits : Nat → Nat → List Char
  | 0, _ => []
  | n + 1, r => hexDigits n (r / 16) ++ [Nat.digitChar (r % 16)]

/-- A root as the API prints it: `0x` and 64 digits. -/
def hexId (r : Root) : List Char := '0' :: 'x' :: hexDigits 64 r

theorem hexVal_digitChar {d : Nat} (h : d < 16) : hexVal (Nat.digitChar d) = some d := by
  have : ∀ d : Fin 16, hexVal (Nat.digitChar d.1) = some d.1 := by decide
  exact this ⟨d, h⟩

theorem hexDecode_snoc : ∀ (l : List Char) (bs : List Nat) (x y : Nat), hexDecode l = some bs →
    x < 16 → y < 16 →
    hexDecode (l ++ [Nat.digitChar x, Nat.digitChar y]) = some (bs ++ [16 * x + y])
  | [], bs, x, y, h, hx, hy => by
    cases h
    simp [hexDecode, hexVal_digitChar hx, hexVal_digitChar hy]
  | [_], _, _, _, h, _, _ => by cases h
  | a :: b :: l, bs, x, y, h, hx, hy => by
    unfold hexDecode at h
    split at h
    next u v r h1 h2 h3 =>
      cases h
      show hexDecode (a :: b :: (l ++ [Nat.digitChar x, Nat.digitChar y])) = _
      unfold hexDecode
      rw [h1, h2, hexDecode_snoc l r x y h3 hx hy]
      rfl
    · cases h

theorem hexDecode_digits : ∀ (n r : Nat), ∃ bs, hexDecode (hexDigits (2 * n) r) = some bs ∧
    bs.length = n ∧ ofBytes bs = r % 256 ^ n
  | 0, r => ⟨[], rfl, rfl, by simp [ofBytes, Nat.mod_one]⟩
  | n + 1, r => by
    obtain ⟨bs, h1, h2, h3⟩ := hexDecode_digits n (r / 16 / 16)
    refine ⟨bs ++ [16 * (r / 16 % 16) + r % 16], ?_, by simp [h2], ?_⟩
    · have : hexDigits (2 * (n + 1)) r =
          hexDigits (2 * n) (r / 16 / 16) ++ [Nat.digitChar (r / 16 % 16), Nat.digitChar (r % 16)] := by
        show (hexDigits (2 * n) (r / 16 / 16) ++ [Nat.digitChar (r / 16 % 16)]) ++
          [Nat.digitChar (r % 16)] = _
        simp
      rw [this]
      exact hexDecode_snoc _ _ _ _ h1 (Nat.mod_lt _ (by omega)) (Nat.mod_lt _ (by omega))
    · unfold ofBytes at h3 ⊢
      rw [List.foldl_append, h3]
      simp only [List.foldl_cons, List.foldl_nil]
      have e : 16 * (r / 16 % 16) + r % 16 = r % 256 := by omega
      rw [e, Nat.div_div_eq_div_mul, Nat.pow_succ, Nat.mul_comm (256 ^ n) 256, Nat.mod_mul]
      show 256 * (r / 256 % 256 ^ n) + r % 256 = _
      omega

/-- Every root is found again from its printed form. -/
theorem parse_hexId (s : Store) {r : Root} (h : r < 2 ^ 256) :
    resolveBlockId s (hexId r) = .ok (.ok r, s) := by
  obtain ⟨bs, h1, h2, h3⟩ := hexDecode_digits 32 r
  unfold resolveBlockId hexId
  simp only
  unfold parseRoot
  rw [show hexDecode (hexDigits 64 r) = some bs from h1]
  simp only [h2, ne_eq, not_true_eq_false, if_false]
  rw [h3, Nat.mod_eq_of_lt (by have : (256 : Nat) ^ 32 = 2 ^ 256 := by norm_num
                               omega)]

theorem decimal_digits {n : Nat} : (decimal n).all isDigit = true := by
  unfold decimal
  rw [List.all_eq_true]
  intro c hc
  have e : (toString n).toList = Nat.toDigits 10 n := Nat.toList_repr
  rw [e] at hc
  have := Nat.isDigit_of_mem_toDigits (by omega) (by omega) hc
  unfold isDigit
  unfold Char.isDigit at this
  simp only [ge_iff_le, Bool.and_eq_true, decide_eq_true_eq] at this ⊢
  exact this

theorem resolve_decimal (s : Store) {n : Nat} (h : n < 2 ^ 64) :
    resolveBlockId s (decimal n) = resolveSlot s n := by
  have hd := decimal_digits (n := n)
  have e : decimal n = Nat.toDigits 10 n := Nat.toList_repr
  have hp : parseU64 (decimal n) = some n := by
    unfold parseU64
    have h1 : (decimal n).isEmpty = false := by
      rw [e]
      cases hh : Nat.toDigits 10 n with
      | nil => exact absurd hh Nat.toDigits_ne_nil
      | cons => rfl
    have h2 : (decimal n).foldl (fun n c => 10 * n + (c.toNat - 48)) 0 = n := by
      have := Nat.ofDigitChars_ten_toDigits (n := n)
      rw [Nat.ofDigitChars_eq_foldl, ← e] at this
      exact this
    rw [h1]
    simp only [h2, Bool.false_eq_true, if_false]
    rw [if_pos h]
  unfold resolveBlockId
  split
  next hex hh =>
    rw [hh] at hd
    simp [isDigit] at hd
  next =>
    rw [if_pos hd, hp]

theorem hexDecode_some : ∀ {l : List Char} {bs : List Nat}, hexDecode l = some bs →
    l.length = 2 * bs.length ∧ ∀ ch ∈ l, (hexVal ch).isSome
  | [], bs, h => by cases h; simp
  | [_], _, h => by cases h
  | a :: b :: l, bs, h => by
    unfold hexDecode at h
    split at h
    next u v r h1 h2 h3 =>
      cases h
      obtain ⟨i1, i2⟩ := hexDecode_some h3
      refine ⟨by simp only [List.length_cons]; omega, fun ch hc => ?_⟩
      rcases List.mem_cons.1 hc with rfl | hc
      · rw [h1]; rfl
      · rcases List.mem_cons.1 hc with rfl | hc
        · rw [h2]; rfl
        · exact i2 ch hc
    · cases h

/-- **C90.** After `0x`, anything but 64 digits from `0-9`, `a-f`, `A-F` is refused. -/
theorem C90_refused_hex (s : Store) (hex : List Char) (h : hex.length ≠ 64 ∨
    ∃ ch ∈ hex, ¬ (('0' ≤ ch ∧ ch ≤ '9') ∨ ('a' ≤ ch ∧ ch ≤ 'f') ∨ ('A' ≤ ch ∧ ch ≤ 'F'))) :
    resolveBlockId s ('0' :: 'x' :: hex) = .ok (.error .invalid, s) := by
  show (match parseRoot hex with
    | none => (.ok (.error .invalid, s) : P (Except IdError Root × Store))
    | some r => .ok (.ok r, s)) = _
  have : parseRoot hex = none := by
    unfold parseRoot
    cases e : hexDecode hex with
    | none => rfl
    | some bs =>
      obtain ⟨h1, h2⟩ := hexDecode_some e
      rcases h with h | ⟨ch, hc, hx⟩
      · exact if_pos (by omega)
      · have := h2 ch hc
        unfold hexVal at this
        push Not at hx
        rw [if_neg (fun q => hx.1 q.1 q.2),
          if_neg (fun q => hx.2.1 q.1 q.2),
          if_neg (fun q => hx.2.2 q.1 q.2)] at this
        cases this
  rw [this]

/-- **C90.** Numbers that are no 64-bit slot are refused. -/
theorem C90_refused_large (s : Store) {n : Nat} (h : 2 ^ 64 ≤ n) :
    resolveBlockId s (decimal n) = .ok (.error .invalid, s) := by
  have hd := decimal_digits (n := n)
  have e : decimal n = Nat.toDigits 10 n := Nat.toList_repr
  have hp : parseU64 (decimal n) = none := by
    unfold parseU64
    have h2 : (decimal n).foldl (fun n c => 10 * n + (c.toNat - 48)) 0 = n := by
      have := Nat.ofDigitChars_ten_toDigits (n := n)
      rw [Nat.ofDigitChars_eq_foldl, ← e] at this
      exact this
    simp only [h2]
    split
    · rfl
    · exact if_neg (by omega)
  unfold resolveBlockId
  split
  next hex hh =>
    rw [hh] at hd
    simp [isDigit] at hd
  next =>
    rw [if_pos hd, hp]

/-- **C90.** Anything that neither starts with `0x` nor is a decimal number is refused. -/
theorem C90_refused (s : Store) (id : List Char) (h1 : ¬ ∃ hex, id = '0' :: 'x' :: hex)
    (h2 : id = [] ∨ ∃ ch ∈ id, ch < '0' ∨ '9' < ch) :
    resolveBlockId s id = .ok (.error .invalid, s) := by
  unfold resolveBlockId
  split
  next hex => exact absurd ⟨_, rfl⟩ h1
  next =>
    rcases h2 with rfl | ⟨ch, hc, hx⟩
    · rfl
    · rw [if_neg]
      intro ha
      have := List.all_eq_true.1 ha ch hc
      unfold isDigit at this
      simp only [Bool.and_eq_true, decide_eq_true_eq] at this
      rcases hx with hx | hx
      · exact absurd this.1 (Char.not_le.2 hx)
      · exact absurd this.2 (Char.not_le.2 hx)

/-! ## Histories and ancestors -/

/-- The history of an imported block names each of its proper ancestors. -/
theorem hist_of_hanc {H : Hash} {g : State} {root : Root} {anchor : State}
    {G : Root → Option State} {hs : AMap Root Header} (T : TInv H g root anchor G hs)
    {x r : Root} (ha : HAnc hs x r) (hx : x ≠ r) :
    ∀ st, G r = some st → ∀ h, hs.get? x = some h →
      st.historicalBlockHashes[h.slot]? = some x := by
  induction ha with
  | self _ => exact absurd rfl hx
  | up e1 e2 e3 ha ih =>
    rename_i r hd pd
    intro st hst h hh
    have hown := (T.own r st hst).2
    rw [e1] at hown
    cases hown
    have hroot : r ≠ root := by
      intro e
      subst e
      rcases T.hdrSlot _ _ e2 with e | e
      · rw [e] at e2
        rw [e1] at e2
        cases e2
        omega
      · have := T.slotEq _ _ T.anc
        rw [T.anc] at hst
        cases hst
        omega
    obtain ⟨p, hp, hlt, -, b, hi⟩ := T.parentOf _ _ hst hroot
    have f := import_frame hi
    have hb : b.parentRoot = st.latestBlockHeader.parentRoot := by rw [f.hdr]; rfl
    have hpl := T.histLen _ _ hp
    have hps := T.slotEq _ _ hp
    rw [f.hist, hb]
    by_cases hxp : x = st.latestBlockHeader.parentRoot
    · subst hxp
      rw [(T.own _ _ hp).2] at hh
      cases hh
      rw [List.getElem?_append_right (by omega), hpl, hps, Nat.sub_self]
      rfl
    · have := ih hxp p hp h hh
      have hl : h.slot < p.historicalBlockHashes.length := (List.getElem?_eq_some_iff.1 this).1
      rw [List.getElem?_append_left hl]
      exact this

/-- Histories of imported blocks name ancestors only, if the named block is stored at all. -/
theorem hanc_of_hist {H : Hash} {K : Header → Prop} {g : State} {root : Root} {anchor : State}
    {G : Root → Option State} {hs : AMap Root Header} (T : TInv H g root anchor G hs)
    (A : AnchorOk H g K root anchor)
    (hk : ∀ r h, hs.get? r = some h → K h ∧ H.header h = r)
    (hc : ∀ a b, K a → K b → H.header a = H.header b → a = b)
    {r x : Root} {st : State} (hst : G r = some st) {j : Nat} {h : Header}
    (hj : st.historicalBlockHashes[j]? = some x) (h0 : x ≠ 0) (hx : hs.get? x = some h) :
    HAnc hs x r ∧ h.slot = j ∧ x ≠ r := by
  have hlen := T.histLen _ _ hst
  have hjl := (List.getElem?_eq_some_iff.1 hj).1
  by_cases ha : anchor.slot ≤ j
  · obtain ⟨h1, sx, h2, h3⟩ := T.hist _ _ hst j x ha hj h0
    have h4 := (T.own _ _ h2).2
    rw [hx] at h4
    cases h4
    have h5 := T.slotEq _ _ h2
    refine ⟨h1, by omega, ?_⟩
    intro e
    subst e
    rw [h2] at hst
    cases hst
    omega
  · exfalso
    rw [T.pre _ _ hst j (by omega)] at hj
    obtain ⟨hx', k1, k2, k3⟩ := A.old j x hj h0
    obtain ⟨k4, k5⟩ := hk _ _ hx
    have := hc _ _ k1 k4 (by rw [k2, k5])
    subst this
    rcases T.hdrSlot _ _ hx with e | e
    · rw [e, (T.own _ _ T.anc).2] at hx
      cases hx
      have := T.slotEq _ _ T.anc
      omega
    · omega

variable {c : Ctx} {t : Nat} {vals : List Validator} {bs : List Block} {a0 : State}
  {body : Option (List AggAtt)} {evs : List Event} {a : Actor}

/-- In a reachable node: what a slot resolves to. -/
theorem resolveSlot_spec (ho : ∀ l, (c.order l).Perm l)
    (W : World c.E t vals bs a0 (Known c.E.H (State.fromGenesis c.E.H t vals) bs evs))
    (h : AReach c a0 body evs a) (slot : Nat) :
    ∃ res s', resolveSlot a.store slot = .ok (res, s') ∧ s'.mem.db = a.store.mem.db ∧
      ((∃ r, res = .ok r) ∨ res = .error .notFound) ∧
      (∀ r hd, a.store.mem.db.headers.get? r = some hd →
        (res = .ok r ↔ HAnc a.store.mem.db.headers r a.store.mem.db.head ∧
          r ≠ a.store.mem.db.head ∧ hd.slot = slot)) := by
  obtain ⟨rank, hR⟩ := W.acyclic
  obtain ⟨root, anchor, ops, A, I⟩ := areach_ainv ho W hR h (fun e he => eventK_known e he)
  obtain ⟨st, hst⟩ := I.node.cp.head
  obtain ⟨s', g1, g2, -, -⟩ := I.node.getState W a.store.mem.db.head
  have hhs : headState a.store = .ok (st, s') := by
    unfold headState
    rw [g1, hst]
  have key : ∀ r hd, a.store.mem.db.headers.get? r = some hd →
      (st.historicalBlockHashes[slot]? = some r ↔
        HAnc a.store.mem.db.headers r a.store.mem.db.head ∧ r ≠ a.store.mem.db.head ∧
          hd.slot = slot) := by
    intro r hd hr
    constructor
    · intro hg
      have h0 : r ≠ 0 := by
        rw [← (I.node.hdrK W _ _ hr).2]; exact W.headerNZ _
      obtain ⟨k1, k2, k3⟩ := hanc_of_hist I.node.tree A (fun r h e => I.node.hdrK W r h e)
        W.collisionFree hst hg h0 hr
      exact ⟨k1, k3, k2⟩
    · rintro ⟨k1, k2, k3⟩
      rw [← k3]
      exact hist_of_hanc I.node.tree k1 k2 st hst hd hr
  unfold resolveSlot
  rw [hhs]
  simp only
  cases hg : st.historicalBlockHashes[slot]? with
  | none =>
    refine ⟨_, s', rfl, g2, .inr rfl, fun r hd hr => ?_⟩
    rw [← key r hd hr, hg]
    constructor <;> intro e <;> cases e
  | some x =>
    simp only
    split
    next h0 =>
      refine ⟨_, s', rfl, g2, .inr rfl, fun r hd hr => ?_⟩
      rw [← key r hd hr, hg]
      constructor
      · intro e; cases e
      · intro e
        cases e
        exact absurd h0 (by rw [← (I.node.hdrK W _ _ hr).2]; exact W.headerNZ _)
    next h0 =>
      refine ⟨_, s', rfl, g2, .inl ⟨x, rfl⟩, fun r hd hr => ?_⟩
      rw [← key r hd hr, hg]
      constructor
      · intro e; cases e; rfl
      · intro e; cases e; rfl

/-! ## The property -/

/-- **C90.** Asked for a header by slot, a reachable node answers with the header of its canonical
chain in that slot if there is one, other than the head; in all other cases with "not found". It never
fails otherwise. -/
theorem C90_header_by_slot_partial (ho : ∀ l, (c.order l).Perm l)
    (W : World c.E t vals bs a0 (Known c.E.H (State.fromGenesis c.E.H t vals) bs evs))
    (h : AReach c a0 body evs a) {slot : Nat} (h64 : slot < 2 ^ 64) :
    (∀ hd, headerReply a.store (decimal slot) = .ok (.ok hd) ↔
      hd.slot = slot ∧ ∃ r, r ≠ a.store.mem.db.head ∧
        a.store.mem.db.headers.get? r = some hd ∧
        HAnc a.store.mem.db.headers r a.store.mem.db.head) ∧
    ((∃ hd, headerReply a.store (decimal slot) = .ok (.ok hd)) ∨
      headerReply a.store (decimal slot) = .ok (.error .notFound)) := by
  obtain ⟨res, s', h1, h2, h3, h4⟩ := resolveSlot_spec ho W h slot
  unfold headerReply
  rw [resolve_decimal _ h64, h1]
  rcases h3 with ⟨r, rfl⟩ | rfl
  · simp only
    unfold Store.header
    rw [h2]
    cases hr : a.store.mem.db.headers.get? r with
    | none =>
      refine ⟨fun hd => ⟨fun e => (by cases e), ?_⟩, .inr rfl⟩
      rintro ⟨k1, x, k2, k3, k4⟩
      have := (h4 x hd k3).2 ⟨k4, k2, k1⟩
      cases this
      rw [hr] at k3
      cases k3
    | some y =>
      refine ⟨fun hd => ⟨fun e => ?_, ?_⟩, .inl ⟨y, rfl⟩⟩
      · cases e
        obtain ⟨k1, k2, k3⟩ := (h4 r _ hr).1 rfl
        exact ⟨k3, r, k2, hr, k1⟩
      · rintro ⟨k1, x, k2, k3, k4⟩
        have := (h4 x hd k3).2 ⟨k4, k2, k1⟩
        cases this
        rw [hr] at k3
        cases k3
        rfl
  · simp only
    refine ⟨fun hd => ⟨fun e => (by cases e), ?_⟩, .inr trivial⟩
    rintro ⟨k1, x, k2, k3, k4⟩
    have := (h4 x hd k3).2 ⟨k4, k2, k1⟩
    cases this

/-- **C90.** The same for whole blocks: those of the canonical chain below the head that the node can
put together. -/
theorem C90_block_by_slot_partial (ho : ∀ l, (c.order l).Perm l)
    (W : World c.E t vals bs a0 (Known c.E.H (State.fromGenesis c.E.H t vals) bs evs))
    (h : AReach c a0 body evs a) {slot : Nat} (h64 : slot < 2 ^ 64) (b : Block) :
    blockReply c.E.H a.store (decimal slot) = .ok (.ok b) ↔
      b.slot = slot ∧ ∃ r, r ≠ a.store.mem.db.head ∧
        getBlock c.E.H a.store.mem.db r = some b ∧
        HAnc a.store.mem.db.headers r a.store.mem.db.head := by
  obtain ⟨res, s', h1, h2, h3, h4⟩ := resolveSlot_spec ho W h slot
  have hb : ∀ r, getBlock c.E.H a.store.mem.db r = some b →
      ∃ hd, a.store.mem.db.headers.get? r = some hd ∧ hd.slot = b.slot := by
    intro r hr
    unfold getBlock at hr
    split at hr
    · cases hr
    next hd hh =>
      refine ⟨hd, hh, ?_⟩
      split at hr
      · cases hr; rfl
      · split at hr
        · cases hr
        · cases hr; rfl
  unfold blockReply
  rw [resolve_decimal _ h64, h1]
  rcases h3 with ⟨r, rfl⟩ | rfl
  · simp only
    rw [h2]
    constructor
    · intro e
      cases hr : getBlock c.E.H a.store.mem.db r with
      | none => rw [hr] at e; cases e
      | some y =>
        rw [hr] at e
        cases e
        obtain ⟨hd, g1, g2⟩ := hb r hr
        obtain ⟨k1, k2, k3⟩ := (h4 r hd g1).1 rfl
        exact ⟨by omega, r, k2, hr, k1⟩
    · rintro ⟨k1, x, k2, k3, k4⟩
      obtain ⟨hd, g1, g2⟩ := hb x k3
      have := (h4 x hd g1).2 ⟨k4, k2, by omega⟩
      cases this
      rw [k3]
  · simp only
    refine ⟨fun e => (by cases e), ?_⟩
    rintro ⟨k1, x, k2, k3, k4⟩
    obtain ⟨hd, g1, g2⟩ := hb x k3
    have := (h4 x hd g1).2 ⟨k4, k2, by omega⟩
    cases this

/-- **C90.** By root, whether canonical or not, a stored block is returned as stored. -/
theorem C90_by_root (H : Hash) (s : Store) {r : Root} (h : r < 2 ^ 256) :
    blockReply H s (hexId r) = .ok (match getBlock H s.mem.db r with
      | none => .error .notFound
      | some b => .ok b) ∧
    headerReply s (hexId r) = .ok (match s.mem.db.headers.get? r with
      | none => .error .notFound
      | some b => .ok b) := by
  unfold blockReply headerReply
  rw [parse_hexId s h]
  constructor
  · simp only
    cases getBlock H s.mem.db r <;> rfl
  · simp only
    unfold Store.header
    cases s.mem.db.headers.get? r <;> rfl

/-- **C90, refutation.** The head of the chain is never found by its slot, in any state of any node. -/
theorem C90_head_not_found (ho : ∀ l, (c.order l).Perm l)
    (W : World c.E t vals bs a0 (Known c.E.H (State.fromGenesis c.E.H t vals) bs evs))
    (h : AReach c a0 body evs a) {hd : Header}
    (hh : a.store.mem.db.headers.get? a.store.mem.db.head = some hd) (h64 : hd.slot < 2 ^ 64) :
    headerReply a.store (decimal hd.slot) = .ok (.error .notFound) := by
  obtain ⟨h1, h2⟩ := C90_header_by_slot_partial ho W h h64
  rcases h2 with ⟨x, h2⟩ | h2
  · exfalso
    obtain ⟨k1, r, k2, k3, k4⟩ := (h1 x).1 h2
    have := k4.slot
    rw [slotOf_eq k3, slotOf_eq hh] at this
    rcases this with e | e
    · exact k2 e
    · omega
  · exact h2

/-- **C90.** The weights the API reports are the numbers of validators whose latest counted vote is for
the block or a descendant of it; blocks at the finalized slot are reported with weight 0. -/
theorem C90_weights (ho : ∀ l, (c.order l).Perm l)
    (W : World c.E t vals bs a0 (Known c.E.H (State.fromGenesis c.E.H t vals) bs evs))
    (h : AReach c a0 body evs a) {x : FcNode} (hx : x ∈ forkChoiceNodes a.store) :
    x.weight = ForkChoice.supportCount (getLiveChain a.store.mem.db) a.store.mem.db.finalized.slot
      (Votes.headVotes a.store.fc) x.root ∧
    ∃ hd, a.store.mem.db.headers.get? x.root = some hd ∧ hd.slot = x.slot ∧
      hd.parentRoot = x.parentRoot ∧ hd.proposerIndex = x.proposer := by
  obtain ⟨rank, hR⟩ := W.acyclic
  obtain ⟨root, anchor, ops, A, I⟩ := areach_ainv ho W hR h (fun e he => eventK_known e he)
  have wf := I.node.wf W
  obtain ⟨g1, g2⟩ := I.node.cp.getLive
  unfold forkChoiceNodes at hx
  simp only [List.mem_map] at hx
  obtain ⟨⟨r, n, p⟩, he, rfl⟩ := hx
  have hg : (getLiveChain a.store.mem.db).get? r = some (n, p) :=
    (AMap.mem_iff_get? g1).1 he
  obtain ⟨st, a1, a2, a3⟩ := I.node.cp.live _ _ _ ((g2 _ _ _).1 hg)
  have hh := (I.node.tree.own _ _ a1).2
  refine ⟨?_, st.latestBlockHeader, hh, ?_, a3, ?_⟩
  · unfold ForkChoice.weightOf
    rw [ForkChoice.C14_weight_is_support wf]
    split
    next e => rw [e]; rfl
    next e => rfl
  · rw [I.node.tree.slotEq _ _ a1]; exact a2
  · show _ = ((a.store.header r).map Header.proposerIndex).getD 0
    unfold Store.header
    rw [hh]
    rfl

/-- **C90.** Every block of the node's tree is reported, once. -/
theorem C90_nodes (s : Store) :
    (forkChoiceNodes s).map FcNode.root = (getLiveChain s.mem.db).map Prod.fst := by
  unfold forkChoiceNodes
  rw [List.map_map]
  rfl

/-! ## A case

The node of `C60_BlockPanic` after a day: the chain is 0, 1, 3, 4, 5. -/

def asked (id : List Char) : Option (Except IdError Nat) :=
  match arun (dayEvs.drop 1) with
  | .ok a => (match headerReply a.store id with
    | .ok r => some (r.map Header.slot)
    | .error _ => none)
  | .error _ => none

example : asked (decimal 4) = some (.ok 4) ∧ asked (decimal 2) = some (.error .notFound) ∧
    asked (decimal 5) = some (.error .notFound) ∧ asked (hexId 6) = some (.ok 5) ∧
    asked [] = some (.error .invalid) ∧ asked (decimal (2 ^ 64)) = some (.error .invalid) := by
  decide +kernel

example : (match arun (dayEvs.drop 1) with
    | .ok a => (a.store.header a.store.mem.db.head).map Header.slot
    | .error _ => none) = some 5 := by
  decide +kernel

/-- All three validators voted for the block of slot 4. -/
example : (match arun (dayEvs.drop 1) with
    | .ok a => (forkChoiceNodes a.store).map (fun (x : FcNode) => (x.slot, x.weight))
    | .error _ => []) = [(3, 0), (4, 3), (5, 0)] := by
  decide +kernel

end Verif.Rpc
