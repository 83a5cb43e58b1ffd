import Verif.Lemmas.Backend
/-!
# C23 slot-prefixed keys, C24 live-chain pruning, C25 proof pruning, C31 write batches

Ranges: a slot is a `u64` (below `2^64`), a root is 32 bytes (below `2^256`).
-/
namespace Verif.Backend
open Verif

/-- A slot and a root in their Rust ranges. -/
def InRange (s : Nat) (r : Root) : Prop := s < 2 ^ 64 ∧ Nat.lt r (2 ^ 256)

/-! ## C23 -/

/-- **C23.** Decoding an encoded key gives the pair back. -/
theorem C23_roundtrip {s : Nat} {r : Root} (h : InRange s r) :
    decodeSlotRoot (encodeSlotRoot s r) = some (s, r) := by
  have h1 : s < 256 ^ 8 := by have := h.1; simpa using this
  have h2 : Nat.lt r (256 ^ 32) := by have := h.2; simpa using this
  have e : (beBytes 8 s).length = 8 := length_beBytes 8 s
  unfold decodeSlotRoot encodeSlotRoot
  rw [if_pos (by rw [List.length_append, length_beBytes, length_beBytes])]
  rw [List.take_left' e, List.drop_left' e, beNat_beBytes, beNat_beBytes, Nat.mod_eq_of_lt h1,
    Nat.mod_eq_of_lt h2]

/-- **C23.** Every 40-byte key decodes to a pair in range that encodes back to it; any other
length is refused. -/
theorem C23_decode_total (b : Bytes) (hb : ∀ x ∈ b, x < 256) :
    (b.length = 40 → ∃ s r, decodeSlotRoot b = some (s, r) ∧ InRange s r ∧
      encodeSlotRoot s r = b) ∧
    (b.length ≠ 40 → decodeSlotRoot b = none) := by
  constructor
  · intro hl
    have ht : (b.take 8).length = 8 := by rw [List.length_take]; omega
    have hd : (b.drop 8).length = 32 := by rw [List.length_drop]; omega
    have ht' : ∀ x ∈ b.take 8, x < 256 := fun x hx => hb x (List.mem_of_mem_take hx)
    have hd' : ∀ x ∈ b.drop 8, x < 256 := fun x hx => hb x (List.mem_of_mem_drop hx)
    refine ⟨_, _, if_pos hl, ⟨?_, ?_⟩, ?_⟩
    · have := beNat_lt _ ht'; rw [ht] at this; simpa using this
    · have h := beNat_lt _ hd'
      rw [hd] at h
      have e : (256 : Nat) ^ 32 = 2 ^ 256 := by norm_num
      rw [e] at h
      exact h
    · unfold encodeSlotRoot
      have a := beBytes_beNat _ ht'
      have c := beBytes_beNat _ hd'
      rw [ht] at a; rw [hd] at c
      rw [a, c, List.take_append_drop]
  · intro hl; exact if_neg hl

/-- **C23.** Byte order of keys is the numeric order of (slot, root) pairs. -/
theorem C23_order {s s' : Nat} {r r' : Root} (h : InRange s r) (h' : InRange s' r') :
    lexLt (encodeSlotRoot s r) (encodeSlotRoot s' r') = true ↔
      s < s' ∨ (s = s' ∧ Nat.lt r r') := by
  have h1 : s < 256 ^ 8 := by have := h.1; simpa using this
  have h2 : Nat.lt r (256 ^ 32) := by have := h.2; simpa using this
  have h3 : s' < 256 ^ 8 := by have := h'.1; simpa using this
  have h4 : Nat.lt r' (256 ^ 32) := by have := h'.2; simpa using this
  unfold encodeSlotRoot
  have e : ∀ x : Root, beBytes 32 x = beBytes 32 x ++ [] := fun x => (List.append_nil _).symm
  rw [e r, e r', lexLt_beBytes_append, lexLt_beBytes_append, Nat.mod_eq_of_lt h1,
    Nat.mod_eq_of_lt h2, Nat.mod_eq_of_lt h3, Nat.mod_eq_of_lt h4]
  simp only [lexLt, Bool.false_eq_true, and_false, or_false]
  exact Iff.rfl

/-- **C23.** A bare slot is an exact bound: the keys below it are those of smaller slots. -/
theorem C23_slot_bound {s c : Nat} {r : Root} (h : InRange s r) (hc : c < 2 ^ 64) :
    lexLt (encodeSlotRoot s r) (encodeSlot c) = true ↔ s < c := by
  have h1 : s < 256 ^ 8 := by have := h.1; simpa using this
  have h3 : c < 256 ^ 8 := by simpa using hc
  unfold encodeSlotRoot encodeSlot
  rw [← List.append_nil (beBytes 8 c), lexLt_beBytes_append, Nat.mod_eq_of_lt h1,
    Nat.mod_eq_of_lt h3]
  have : lexLt (beBytes 32 r) [] = false := by cases beBytes 32 r <;> rfl
  simp [this]

/-- **C23.** Slot keys sort like slots and distinct slots have distinct keys. -/
theorem C23_slot_keys {a b : Nat} (ha : a < 2 ^ 64) (hb : b < 2 ^ 64) :
    (lexLt (encodeSlot a) (encodeSlot b) = true ↔ a < b) ∧
    (encodeSlot a = encodeSlot b → a = b) := by
  have h1 : a < 256 ^ 8 := by simpa using ha
  have h3 : b < 256 ^ 8 := by simpa using hb
  unfold encodeSlot
  constructor
  · rw [← List.append_nil (beBytes 8 a), ← List.append_nil (beBytes 8 b), lexLt_beBytes_append,
      Nat.mod_eq_of_lt h1, Nat.mod_eq_of_lt h3]
    simp [lexLt]
  · intro h
    have := congrArg beNat h
    rwa [beNat_beBytes, beNat_beBytes, Nat.mod_eq_of_lt h1, Nat.mod_eq_of_lt h3] at this

/-- Non-vacuity, at a carry of the slot's low byte. -/
example : InRange 255 7 ∧ InRange 256 3 ∧
    lexLt (encodeSlotRoot 255 7) (encodeSlotRoot 256 3) = true ∧
    lexLt (encodeSlotRoot 256 3) (encodeSlotRoot 255 7) = false := by
  refine ⟨⟨by decide, ?_⟩, ⟨by decide, ?_⟩, by decide +kernel, by decide +kernel⟩
  · show (7 : Nat) < 2 ^ 256; decide +kernel
  · show (3 : Nat) < 2 ^ 256; decide +kernel

/-! ## C31 -/

/-- What one operation says about key `k`: `none` = untouched, `some v` = now reads `v`. -/
def verdict (k : Bytes) : Op → Option (Option Bytes)
  | .put k' v => if k' = k then some (some v) else none
  | .delete k' => if k' = k then some none else none
  | .deleteRange lo hi => if lexLt k lo = false ∧ lexLt k hi = true then some none else none

/-- The last operation on table `t` touching `k` decides; otherwise the old value stays. -/
def lastWins (ops : List (Table × Op)) (t : Table) (k : Bytes) (old : Option Bytes) :
    Option Bytes :=
  (ops.reverse.findSome? (fun e => if e.1 = t then verdict k e.2 else none)).getD old

theorem get?_applyOp {m : TableData} (h : m.keys.Nodup) (o : Op) (k : Bytes) :
    (applyOp m o).get? k = (verdict k o).getD (m.get? k) := by
  cases o with
  | put k' v =>
    simp only [applyOp, verdict, AMap.get?_insert]
    split <;> rfl
  | delete k' =>
    simp only [applyOp, verdict, AMap.get?_erase]
    split <;> rfl
  | deleteRange lo hi =>
    simp only [applyOp, verdict, AMap.get?_filter h]
    cases hg : m.get? k with
    | none => simp only [Option.filter_none]; split <;> rfl
    | some v =>
      rw [Option.filter_some]
      cases h1 : lexLt k lo <;> cases h2 : lexLt k hi <;> simp

/-- **C31.** After a commit, every key of every table reads what the last operation queued for it
says, and everything else is as before. -/
theorem C31_commit_reads {d : Data} (h : ∀ t, (d t).keys.Nodup) (ops : List (Table × Op))
    (t : Table) (k : Bytes) :
    (commit d ops t).get? k = lastWins ops t k ((d t).get? k) := by
  induction ops generalizing d with
  | nil => rfl
  | cons e es ih =>
    have hd : ∀ t, (applyAt d e.1 e.2 t).keys.Nodup := by
      intro t
      show (AMap.keys (if t = e.1 then applyOp (d e.1) e.2 else d t)).Nodup
      split
      · exact nodup_applyOp (h _) _
      · exact h t
    show (commit (applyAt d e.1 e.2) es t).get? k = _
    rw [ih hd]
    unfold lastWins
    rw [List.reverse_cons, List.findSome?_append]
    cases hf : es.reverse.findSome? (fun e => if e.1 = t then verdict k e.2 else none) with
    | some v => simp
    | none =>
      simp only [Option.getD_none, Option.none_or, List.findSome?_cons, List.findSome?_nil]
      show AMap.get? (if t = e.1 then applyOp (d e.1) e.2 else d t) k = _
      by_cases ht : t = e.1
      · subst ht
        simp only [if_true]
        rw [get?_applyOp (h _)]
        cases verdict k e.2 <;> rfl
      · rw [if_neg ht, if_neg (fun he => ht he.symm)]; rfl

/-- The batches committed by a sequence of actions, oldest first, computed without looking at the
data: `open_` maps each open batch to the calls made on it. -/
def committed (open_ : AMap Nat (List Call)) : List Act → List (List Call)
  | [] => []
  | .begin id :: as => committed (open_.insert id []) as
  | .call id c :: as =>
    match open_.get? id with
    | some cs => committed (open_.insert id (cs ++ [c])) as
    | none => committed open_ as
  | .commit id :: as =>
    match open_.get? id with
    | some cs => cs :: committed (open_.erase id) as
    | none => committed open_ as
  | .drop id :: as => committed (open_.erase id) as

/-- The flattened operations of a batch's calls. -/
def callsOps (cs : List Call) : List (Table × Op) := cs.flatMap Call.ops

theorem run_data (s : Sys) (open_ : AMap Nat (List Call)) (as : List Act)
    (hrel : ∀ id, s.batches.get? id = (open_.get? id).map callsOps) :
    (as.foldl step s).data = (committed open_ as).foldl (fun d cs => commit d (callsOps cs)) s.data := by
  induction as generalizing s open_ with
  | nil => rfl
  | cons a as ih =>
    cases a with
    | begin id =>
      refine ih (step s (.begin id)) _ ?_
      intro id'
      simp only [step, AMap.get?_insert]
      split
      · rfl
      · exact hrel id'
    | drop id =>
      refine ih (step s (.drop id)) _ ?_
      intro id'
      simp only [step, AMap.get?_erase]
      split
      · rfl
      · exact hrel id'
    | call id c =>
      simp only [List.foldl_cons, committed]
      cases ho : open_.get? id with
      | none =>
        have hb := hrel id
        rw [ho] at hb
        have : step s (.call id c) = s := by simp [step, hb]
        rw [this]
        exact ih s open_ hrel
      | some cs =>
        have hb := hrel id
        rw [ho] at hb
        have : step s (.call id c) =
            { s with batches := s.batches.insert id (callsOps cs ++ c.ops) } := by
          simp [step, hb]
        rw [this]
        refine ih _ _ ?_
        intro id'
        simp only [AMap.get?_insert]
        split
        · simp [callsOps]
        · exact hrel id'
    | commit id =>
      simp only [List.foldl_cons, committed]
      cases ho : open_.get? id with
      | none =>
        have hb := hrel id
        rw [ho] at hb
        have : step s (.commit id) = s := by simp [step, hb]
        rw [this]
        exact ih s open_ hrel
      | some cs =>
        have hb := hrel id
        rw [ho] at hb
        have : step s (.commit id) =
            { data := commit s.data (callsOps cs), batches := s.batches.erase id } := by
          simp [step, hb]
        rw [this]
        simp only [List.foldl_cons]
        refine ih _ _ ?_
        intro id'
        simp only [AMap.get?_erase]
        split
        · rfl
        · exact hrel id'

/-- What one queued call says about key `k` of table `t`: `none` = untouched, `some v` = now reads
`v`. Of several entries for the same key in one call, the last decides. -/
def callVerdict (t : Table) (k : Bytes) : Call → Option (Option Bytes)
  | .putBatch t' kvs =>
    if t' = t then (kvs.reverse.find? (fun e => e.1 = k)).map (fun e => some e.2) else none
  | .deleteBatch t' ks => if t' = t ∧ k ∈ ks then some none else none
  | .deleteRange t' lo hi =>
    if t' = t ∧ lexLt k lo = false ∧ lexLt k hi = true then some none else none

/-- The last call of a batch that touches the key decides; otherwise the old value stays. -/
def batchReads (cs : List Call) (t : Table) (k : Bytes) (old : Option Bytes) : Option Bytes :=
  (cs.reverse.findSome? (callVerdict t k)).getD old

theorem findSome?_ops (c : Call) (t : Table) (k : Bytes) :
    c.ops.reverse.findSome? (fun e => if e.1 = t then verdict k e.2 else none)
      = callVerdict t k c := by
  cases c with
  | deleteRange t' lo hi =>
    simp only [Call.ops, callVerdict, List.reverse_singleton, List.findSome?_cons,
      List.findSome?_nil, verdict]
    by_cases h : t' = t <;> by_cases h2 : lexLt k lo = false ∧ lexLt k hi = true <;> simp [h, h2]
  | deleteBatch t' ks =>
    simp only [Call.ops, callVerdict, ← List.map_reverse]
    have gen : ∀ l : List Bytes,
        (l.map (fun k => (t', Op.delete k))).findSome?
          (fun e => if e.1 = t then verdict k e.2 else none)
          = if t' = t ∧ k ∈ l then some none else none := by
      intro l
      induction l with
      | nil => simp
      | cons x l ih =>
        rw [List.map_cons, List.findSome?_cons]
        simp only [verdict]
        by_cases h : t' = t
        · simp only [h, true_and, if_true] at ih ⊢
          by_cases hx : x = k
          · simp [hx]
          · have hx' : ¬ k = x := fun e => hx e.symm
            simp only [if_neg hx, List.mem_cons, hx', false_or]
            exact ih
        · simp only [h, false_and, if_false] at ih ⊢
          exact ih
    rw [gen]
    simp
  | putBatch t' kvs =>
    simp only [Call.ops, callVerdict, ← List.map_reverse]
    generalize kvs.reverse = l
    induction l with
    | nil => simp
    | cons x l ih =>
      rw [List.map_cons, List.findSome?_cons]
      simp only [verdict]
      by_cases h : t' = t
      · simp only [h, if_true] at ih ⊢
        by_cases hx : x.1 = k
        · simp [hx]
        · simp only [if_neg hx]
          rw [List.find?_cons_of_neg (by simpa using hx)]
          exact ih
      · simp only [h, if_false] at ih ⊢
        exact ih

theorem lastWins_callsOps (cs : List Call) (t : Table) (k : Bytes) (old : Option Bytes) :
    lastWins (callsOps cs) t k old = batchReads cs t k old := by
  unfold lastWins batchReads callsOps
  congr 1
  induction cs with
  | nil => rfl
  | cons c cs ih =>
    rw [List.flatMap_cons, List.reverse_append, List.findSome?_append, ih, List.reverse_cons,
      List.findSome?_append, findSome?_ops]
    congr 1
    simp only [List.findSome?_cons, List.findSome?_nil]
    cases callVerdict t k c <;> rfl

/-- **C31.** Whatever the interleaving of open batches, a read sees exactly the committed batches,
each as a whole, in commit order, and within each the calls in the order they were queued: nothing
of an uncommitted or dropped batch is visible. -/
theorem C31_atomic (d : Data) (h : ∀ t, (d t).keys.Nodup) (as : List Act) (t : Table) (k : Bytes) :
    (as.foldl step ⟨d, []⟩).get t k =
      (committed [] as).foldl (fun v cs => batchReads cs t k v) ((d t).get? k) := by
  unfold Sys.get
  rw [run_data ⟨d, []⟩ [] as (fun id => rfl)]
  generalize committed [] as = l
  show ((l.foldl (fun d cs => commit d (callsOps cs)) d) t).get? k = _
  induction l generalizing d with
  | nil => rfl
  | cons cs l ih =>
    simp only [List.foldl_cons]
    rw [ih _ (nodup_commit h _), C31_commit_reads h, lastWins_callsOps]

/-- **C31.** `begin`, queueing calls and dropping a batch change no read. -/
theorem C31_uncommitted_invisible (s : Sys) (a : Act) (ha : ∀ id, a ≠ .commit id) (t : Table)
    (k : Bytes) : (step s a).get t k = s.get t k := by
  cases a with
  | commit id => exact absurd rfl (ha id)
  | begin id => rfl
  | drop id => rfl
  | call id c =>
    show (((match s.batches.get? id with
      | some ops => { s with batches := s.batches.insert id (ops ++ c.ops) }
      | none => s) : Sys).data t).get? k = _
    split <;> rfl

/-- **C31.** Prefix iteration yields exactly the entries with the prefix, in strictly increasing
key order, and the two backends agree. -/
theorem C31_prefix_iter {m : TableData} (hn : m.keys.Nodup) (pre : Bytes) :
    (∀ e, e ∈ prefixIter m pre ↔ e ∈ m ∧ ∃ rest, e.1 = pre ++ rest) ∧
    (prefixIter m pre).Pairwise (fun a b => lexLt a.1 b.1 = true) ∧
    rocksPrefixIter m pre = prefixIter m pre := by
  refine ⟨?_, sortEntries_sorted (AMap.nodup_filter hn _), rocks_eq hn pre⟩
  intro e
  unfold prefixIter
  rw [(sortEntries_perm _).mem_iff, List.mem_filter]
  have key : ∀ a b : Bytes, startsWith a b = true ↔ ∃ rest, a = b ++ rest := by
    intro a b
    induction b generalizing a with
    | nil => cases a <;> simp [startsWith]
    | cons y ys ih =>
      cases a with
      | nil => simp [startsWith]
      | cons x xs => simp [startsWith, ih]
  rw [key]

/-- Non-vacuity: two interleaved batches; the later commit overwrites the earlier one, the dropped
one leaves nothing, a put after a range delete in the same batch survives. -/
example :
    let d : Data := fun _ => [([1], [10]), ([2], [20])]
    let as : List Act := [.begin 0, .begin 1, .call 1 (.putBatch .states [([1], [11])]),
      .call 0 (.deleteRange .states [0] [2]), .call 0 (.putBatch .states [([1], [12])]),
      .begin 2, .call 2 (.deleteBatch .states [[2]]), .drop 2, .commit 1, .commit 0]
    let s := as.foldl step ⟨d, []⟩
    s.get .states [1] = some [12] ∧ s.get .states [2] = some [20] ∧
      s.get .liveChain [1] = some [10] := by decide +kernel

/-! ## C24 -/

/-- A slot||root keyed table: distinct keys, each an encoded pair. -/
def SlotRootTable (m : TableData) : Prop :=
  m.keys.Nodup ∧ ∀ k ∈ m.keys, ∃ s r, InRange s r ∧ k = encodeSlotRoot s r

theorem scanBelow_eq {l : List (Bytes × Bytes)} (bound : Nat)
    (hl : ∀ e ∈ l, ∃ s r, InRange s r ∧ e.1 = encodeSlotRoot s r)
    (hs : l.Pairwise (fun a b => lexLt a.1 b.1 = true)) :
    ∃ ks, scanBelow bound l = some ks ∧ ks.Nodup ∧
      ∀ k, k ∈ ks ↔ k ∈ l.map Prod.fst ∧ ∃ s r, InRange s r ∧ k = encodeSlotRoot s r ∧ s < bound := by
  induction l with
  | nil => exact ⟨[], rfl, List.nodup_nil, by simp⟩
  | cons e es ih =>
    rw [List.pairwise_cons] at hs
    obtain ⟨ks, hks, hnd, hmem⟩ := ih (fun f hf => hl f (List.mem_cons_of_mem _ hf)) hs.2
    obtain ⟨s, r, hr, he⟩ := hl e List.mem_cons_self
    unfold scanBelow
    rw [he, C23_roundtrip hr]
    simp only
    split
    · next hlt =>
      refine ⟨encodeSlotRoot s r :: ks, by rw [hks]; rfl, ?_, ?_⟩
      · rw [List.nodup_cons]
        refine ⟨?_, hnd⟩
        intro hin
        obtain ⟨f, hf, hfe⟩ := List.mem_map.1 ((hmem _).1 hin).1
        have := hs.1 f hf
        rw [hfe, he, lexLt_irrefl] at this; cases this
      · intro k
        rw [List.mem_cons, hmem, List.map_cons, List.mem_cons, he]
        constructor
        · rintro (h | h)
          · exact ⟨Or.inl h, s, r, hr, h, hlt⟩
          · exact ⟨Or.inr h.1, h.2⟩
        · rintro ⟨h | h, h'⟩
          · exact Or.inl h
          · exact Or.inr ⟨h, h'⟩
    · next hge =>
      refine ⟨[], rfl, List.nodup_nil, ?_⟩
      intro k
      simp only [List.not_mem_nil, false_iff, not_and]
      rintro hk ⟨s', r', hr', rfl, hlt⟩
      rw [List.map_cons, List.mem_cons] at hk
      rcases hk with hk | hk
      · rw [he] at hk
        have := encodeSlotRoot_inj hr'.1 hr'.2 hr.1 hr.2 hk
        omega
      · obtain ⟨f, hf, hfe⟩ := List.mem_map.1 hk
        have := hs.1 f hf
        rw [hfe, he, C23_order hr hr'] at this
        omega

theorem get?_deleteAll (t : Table) (ks : List Bytes) (d : Data) (h : ∀ t, (d t).keys.Nodup)
    (k : Bytes) :
    (commit d (Call.ops (.deleteBatch t ks)) t).get? k = if k ∈ ks then none else (d t).get? k := by
  induction ks generalizing d with
  | nil => simp [Call.ops, commit]
  | cons x xs ih =>
    have hd : ∀ t', (applyAt d t (.delete x) t').keys.Nodup := by
      intro t'
      show (AMap.keys (if t' = t then applyOp (d t) (.delete x) else d t')).Nodup
      split
      · exact nodup_applyOp (h _) _
      · exact h t'
    show (commit (applyAt d t (.delete x)) (Call.ops (.deleteBatch t xs)) t).get? k = _
    rw [ih _ hd]
    have e : applyAt d t (.delete x) t = (d t).erase x := by simp [applyAt, applyOp]
    rw [e, AMap.get?_erase]
    simp only [List.mem_cons]
    by_cases h1 : k ∈ xs
    · simp [h1]
    · by_cases h2 : x = k
      · simp [h2]
      · have h3 : ¬ k = x := fun h => h2 h.symm
        simp [h1, h2, h3]

/-- **C24.** On a well-keyed table the scan never fails; afterwards a key below the finalized slot
is absent and every other key reads as before; the returned count is the number of removed
entries. -/
theorem C24_prune_exact {m : TableData} (hm : SlotRootTable m) (fin : Nat) :
    ∃ m' n, pruneLiveChain m fin = some (m', n) ∧ SlotRootTable m' ∧
      (∀ s r, InRange s r → m'.get? (encodeSlotRoot s r) =
        if s < fin then none else m.get? (encodeSlotRoot s r)) ∧
      n + m'.length = m.length := by
  obtain ⟨hn, hk⟩ := hm
  have hperm : (prefixIter m []).Perm m := by
    have e : m.filter (fun e => startsWith e.1 []) = m := by
      rw [List.filter_eq_self]; intro a _; cases a.1 <;> rfl
    unfold prefixIter
    rw [e]
    exact sortEntries_perm m
  have hkeys : ∀ e ∈ prefixIter m [], ∃ s r, InRange s r ∧ e.1 = encodeSlotRoot s r := by
    intro e he
    exact hk e.1 (List.mem_map.2 ⟨e, hperm.mem_iff.1 he, rfl⟩)
  obtain ⟨ks, hks, hnd, hmem⟩ := scanBelow_eq fin hkeys (C31_prefix_iter hn []).2.1
  have hmem' : ∀ k, k ∈ ks ↔ k ∈ m.keys ∧ ∃ s r, InRange s r ∧ k = encodeSlotRoot s r ∧ s < fin := by
    intro k
    rw [hmem, (hperm.map Prod.fst).mem_iff]; rfl
  let m' : TableData := commit (fun _ => m) (Call.ops (.deleteBatch .liveChain ks)) .liveChain
  have hget : ∀ k, m'.get? k = if k ∈ ks then none else m.get? k :=
    fun k => get?_deleteAll .liveChain ks (fun _ => m) (fun _ => hn) k
  have hn' : m'.keys.Nodup := nodup_commit (fun _ => hn) _ _
  have hk' : ∀ k, k ∈ m'.keys ↔ k ∈ m.keys ∧ k ∉ ks := by
    intro k
    rw [AMap.mem_keys_iff, AMap.mem_keys_iff, hget]
    by_cases h : k ∈ ks <;> simp [h]
  have hlen : ks.length + m'.length = m.length := by
    have hp : (ks ++ m'.keys).Perm m.keys := by
      rw [List.perm_ext_iff_of_nodup _ hn]
      · intro k
        rw [List.mem_append, hk']
        constructor
        · rintro (h | h)
          · exact ((hmem' k).1 h).1
          · exact h.1
        · intro h
          by_cases hc : k ∈ ks
          · exact Or.inl hc
          · exact Or.inr ⟨h, hc⟩
      · rw [List.nodup_append]
        refine ⟨hnd, hn', ?_⟩
        rintro a ha b hb rfl
        exact ((hk' a).1 hb).2 ha
    have := hp.length_eq
    rw [List.length_append] at this
    simpa [AMap.keys] using this
  have hresult : pruneLiveChain m fin = some (m', ks.length) := by
    unfold pruneLiveChain
    rw [hks]
    simp only
    split
    · next h0 =>
      have : ks = [] := List.length_eq_zero_iff.1 h0
      subst this; rfl
    · rfl
  refine ⟨m', ks.length, hresult, ⟨hn', ?_⟩, ?_, hlen⟩
  · intro k h; exact hk k ((hk' k).1 h).1
  · intro s r hr
    rw [hget]
    by_cases hs : s < fin
    · rw [if_pos hs]
      split
      · rfl
      · next hc =>
        rw [AMap.get?_eq_none_iff]
        intro hin
        exact hc ((hmem' _).2 ⟨hin, s, r, hr, rfl, hs⟩)
    · rw [if_neg hs, if_neg]
      intro hin
      obtain ⟨_, s', r', hr', he, hlt⟩ := (hmem' _).1 hin
      have := encodeSlotRoot_inj hr.1 hr.2 hr'.1 hr'.2 he
      omega

/-- Non-vacuity: four entries in scrambled order, two below the bound. -/
example :
    let m : TableData := [(encodeSlotRoot 256 1, [1]), (encodeSlotRoot 3 9, [2]),
      (encodeSlotRoot 255 4, [3]), (encodeSlotRoot 300 0, [4])]
    (pruneLiveChain m 256).map (fun x => (x.1.map Prod.snd, x.2)) = some ([[1], [4]], 2) := by
  decide +kernel

/-! ## C25 -/

/-- Range deletion of all slots below `c`. -/
theorem get?_deleteBelow {m : TableData} (hm : SlotRootTable m) {c : Nat} (hc : c < 2 ^ 64)
    {s : Nat} {r : Root} (hr : InRange s r) :
    (commit (fun _ => m) (Call.ops (.deleteRange .blockProof (beBytes 8 0) (beBytes 8 c)))
      .blockProof).get? (encodeSlotRoot s r) =
      if s < c then none else m.get? (encodeSlotRoot s r) := by
  rw [C31_commit_reads (fun _ => hm.1)]
  have b1 : lexLt (encodeSlotRoot s r) (beBytes 8 0) = false := by
    have := C23_slot_bound hr (c := 0) (by decide)
    unfold encodeSlot at this
    cases h : lexLt (encodeSlotRoot s r) (beBytes 8 0) with
    | false => rfl
    | true => have := this.1 h; omega
  have b2 := C23_slot_bound hr (c := c) hc
  unfold encodeSlot at b2
  simp only [lastWins, Call.ops, List.reverse_cons, List.reverse_nil, List.nil_append,
    List.findSome?_cons, List.findSome?_nil, if_true, verdict, b1, true_and, b2]
  by_cases hsc : s < c
  · rw [if_pos hsc, if_pos hsc]; rfl
  · rw [if_neg hsc, if_neg hsc]; rfl

/-- **C25.** With `cutoff = tip - 21600` (never below zero): proofs are removed exactly when the
cutoff is positive and not beyond the finalized slot, and then exactly those of slots below it. -/
theorem C25_prune_exact {m : TableData} (hm : SlotRootTable m) {fin tip : Nat} (htip : tip < 2 ^ 64)
    {s : Nat} {r : Root} (hr : InRange s r) :
    (pruneOldBlockProofs m fin tip).1.get? (encodeSlotRoot s r) =
      if s + 21600 < tip ∧ tip ≤ fin + 21600 then none else m.get? (encodeSlotRoot s r) := by
  unfold pruneOldBlockProofs
  have h2 := get?_deleteBelow hm (c := tip - blockProofPruningRange) (by omega) hr
  have hc1 : s < tip - blockProofPruningRange ↔ s + 21600 < tip := by
    rw [blockProofPruningRange]; omega
  have hc2 : tip - blockProofPruningRange > fin ∨ tip - blockProofPruningRange = 0 ↔
      ¬ (tip ≤ fin + 21600 ∧ 21600 < tip) := by rw [blockProofPruningRange]; omega
  generalize tip - blockProofPruningRange = c at *
  by_cases h : c > fin ∨ c = 0
  · simp only [if_pos h]
    rw [if_neg (by omega)]
  · simp only [if_neg h]
    rw [h2]
    by_cases hsc : s < c
    · rw [if_pos hsc, if_pos (by omega)]
    · rw [if_neg hsc, if_neg (by omega)]

/-- **C25.** No proof of a block at or above the finalized slot, or within 21600 slots of the tip,
is ever removed. -/
theorem C25_keeps_unfinalized_and_recent {m : TableData} (hm : SlotRootTable m) {fin tip : Nat}
    (htip : tip < 2 ^ 64) {s : Nat} {r : Root} (hr : InRange s r)
    (hkeep : fin ≤ s ∨ tip ≤ s + 21600) :
    (pruneOldBlockProofs m fin tip).1.get? (encodeSlotRoot s r) = m.get? (encodeSlotRoot s r) := by
  rw [C25_prune_exact hm htip hr, if_neg]
  rintro ⟨h1, h2⟩
  rcases hkeep with h | h <;> omega

/-- Non-vacuity: with the tip at 21700 and 21650 finalized, the proof at slot 99 goes and the one
at slot 100 stays; with slot 99 finalized nothing goes. -/
example :
    let m : TableData := [(encodeSlotRoot 100 1, [1]), (encodeSlotRoot 99 9, [2])]
    ((pruneOldBlockProofs m 21650 21700).1.map Prod.snd = [[1]] ∧
      (pruneOldBlockProofs m 21650 21700).2 = 100) ∧ pruneOldBlockProofs m 99 21700 = (m, 0) := by
  have h1 : lexLt (encodeSlotRoot 100 1) (beBytes 8 0) = false := by decide +kernel
  have h2 : lexLt (encodeSlotRoot 99 9) (beBytes 8 0) = false := by decide +kernel
  have h3 : lexLt (encodeSlotRoot 100 1) (beBytes 8 100) = false := by decide +kernel
  have h4 : lexLt (encodeSlotRoot 99 9) (beBytes 8 100) = true := by decide +kernel
  simp [pruneOldBlockProofs, blockProofPruningRange, commit, Call.ops, applyAt, applyOp, h1, h2,
    h3, h4]

end Verif.Backend
