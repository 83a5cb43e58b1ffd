import Verif.Lemmas.Aggregation
/-!
# C46: aggregation jobs never double-count or lose a signer
-/
namespace Verif.Build
open Verif Verif.Buffers

/-- Validator `v` is registered and its attestation key decodes. -/
def HasKey (decodes : Nat → Bool) (vals : List Validator) (v : Nat) : Prop :=
  ∃ x, vals[v]? = some x ∧ decodes x.attestationPubkey = true

theorem resolves_iff {decodes : Nat → Bool} {vals : List Validator} {v : Nat} :
    resolves decodes vals v = true ↔ HasKey decodes vals v := by
  unfold resolves HasKey
  cases vals[v]? <;> simp

/-- Job construction. From stored signatures `sigs` and the proofs held for the message: no signer is
listed twice among the raw signatures or occurs both raw and inside a child; raw signatures are
stored ones; children are at most two of the held proofs, with all participants' keys available;
every stored signer with a key is represented; at least two pieces are combined; the signatures to
be deleted are exactly the stored ones of this message. -/
theorem C46_job (decodes : Nat → Bool) (vals : List Validator) (d : AttData) (root : Root)
    (sigs : List (Nat × Nat)) (new known : List Agg) (j : Job)
    (h : resolveJob decodes vals d root sigs new known = some j) :
    (j.raw.map Prod.fst).Nodup ∧
    (∃ qs : List Agg, qs.length ≤ 2 ∧ (∀ q ∈ qs, q ∈ new ∨ q ∈ known) ∧
      j.children.map Prod.snd = qs.map Agg.proof ∧
      (∀ v, (∃ c ∈ j.children, v ∈ c.1) ↔ ∃ q ∈ qs, In v q) ∧
      (∀ v, v ∈ j.childIds ↔ ∃ q ∈ qs, In v q) ∧
      (∀ v ∈ j.raw.map Prod.fst, ∀ q ∈ qs, ¬ In v q) ∧
      ∀ q ∈ qs, ∀ v, In v q → HasKey decodes vals v) ∧
    (∀ x ∈ j.raw, x ∈ sigs ∧ HasKey decodes vals x.1) ∧
    (∀ x ∈ sigs, HasKey decodes vals x.1 → x.1 ∈ j.raw.map Prod.fst ∨ x.1 ∈ j.childIds) ∧
    2 ≤ j.raw.length + j.children.length ∧
    ∀ v r, (v, r) ∈ j.keysToDelete ↔ r = root ∧ ∃ s, (v, s) ∈ sigs := by
  have J := resolveJob_spec h
  obtain ⟨qs, q1, q2, q3, q4, q5⟩ := J.children
  have hc : ∀ v, v ∈ j.childIds ↔ ∃ q ∈ qs, In v q := by
    intro v; rw [q4, List.mem_flatMap]; simp only [mem_ids]
  refine ⟨J.nodup, ⟨qs, q1, fun q hq => List.mem_append.1 (q2 q hq), ?_, ?_, hc, ?_,
    fun q hq v hv => resolves_iff.1 (q5 q hq v hv)⟩,
    fun x hx => ⟨(J.raw x hx).1, resolves_iff.1 (J.raw x hx).2⟩,
    fun x hx hk => J.kept x hx (resolves_iff.2 hk), J.viable, ?_⟩
  · rw [q3, List.map_map]; rfl
  · intro v
    rw [q3]
    simp only [List.mem_map]
    constructor
    · rintro ⟨c, ⟨q, hq, rfl⟩, hv⟩; exact ⟨q, hq, mem_ids.1 hv⟩
    · rintro ⟨q, hq, hv⟩; exact ⟨_, ⟨q, hq, rfl⟩, mem_ids.2 hv⟩
  · intro v hv q hq hi
    exact J.disjoint v hv ((hc v).2 ⟨q, hq, hi⟩)
  · intro v r
    rw [J.keys, List.mem_map]
    constructor
    · rintro ⟨hr, x, hx, rfl⟩; exact ⟨hr, x.2, hx⟩
    · rintro ⟨hr, s, hs⟩; exact ⟨hr, _, hs, rfl⟩

/-- Publication. The published bits are exactly the raw signers and the children's participants, the
reported participant list is that set in ascending order, and the message is the job's. -/
theorem C46_published (prove : Job → Option Nat) (j : Job) (o : GroupOut)
    (h : aggregateJob prove j = .ok (some o)) :
    o.data = j.data ∧ some o.proof.proof = prove j ∧ o.keysToDelete = j.keysToDelete ∧
    (∀ v, In v o.proof ↔ v ∈ j.raw.map Prod.fst ∨ v ∈ j.childIds) ∧
    (∀ v, v ∈ o.participants ↔ In v o.proof) ∧ o.participants.Pairwise (· < ·) := by
  unfold aggregateJob at h
  split at h
  · cases h
  split at h
  · cases h
  cases hp : prove j with
  | none => rw [hp] at h; cases h
  | some pr =>
    rw [hp] at h
    simp only at h
    split at h
    · cases h
    · cases h
      refine ⟨rfl, rfl, rfl, ?_, ?_, sortDedup_sorted _⟩
      · intro v
        unfold In
        simp only
        rw [bitsFromIndices_get, mem_sortDedup, List.mem_append]
      · intro v
        unfold In
        simp only
        rw [bitsFromIndices_get]

/-- The worker does not panic on a resolved job of a registry within the protocol limit. -/
theorem C46_no_panic (decodes : Nat → Bool) (vals : List Validator) (d : AttData) (root : Root)
    (sigs : List (Nat × Nat)) (new known : List Agg) (j : Job) (prove : Job → Option Nat)
    (h : resolveJob decodes vals d root sigs new known = some j)
    (hv : vals.length ≤ 4096) (hs : d.slot < 2 ^ 32) :
    ∃ o, aggregateJob prove j = .ok o := by
  have J := resolveJob_spec h
  unfold aggregateJob
  split
  · exact ⟨_, rfl⟩
  rw [if_neg (by rw [J.data]; omega)]
  cases prove j with
  | none => exact ⟨_, rfl⟩
  | some pr =>
    simp only
    rw [if_neg]
    · exact ⟨_, rfl⟩
    · intro hc
      rw [List.any_eq_true] at hc
      obtain ⟨v, hm, hge⟩ := hc
      have hge : 4096 ≤ v := of_decide_eq_true hge
      rw [mem_sortDedup, List.mem_append] at hm
      have hr : resolves decodes vals v = true := by
        rcases hm with hm | hm
        · obtain ⟨x, hx, rfl⟩ := List.mem_map.1 hm
          exact (J.raw x hx).2
        · obtain ⟨qs, -, -, -, q4, q5⟩ := J.children
          rw [q4, List.mem_flatMap] at hm
          obtain ⟨q, hq, hv⟩ := hm
          exact q5 q hq v (mem_ids.1 hv)
      obtain ⟨x, hx, -⟩ := resolves_iff.1 hr
      have := (List.getElem?_eq_some_iff.1 hx).1
      omega

/-- Pools as they arise: each from the empty buffer by its operations. -/
structure Pools.Reached (H : Hash) (p : Pools) : Prop where
  gossip : ∃ c ops, (GossipBuffer.new c).run H ops = some p.gossip
  new : ∃ c ops, (PayloadBuffer.new c).run H ops = some p.new
  known : ∃ c ops, (PayloadBuffer.new c).run H ops = some p.known

/-- A session. The snapshot never panics while the chain is within its slot limit, yields at most
the allowed number of jobs for pairwise distinct messages, each filed under the root of its message,
and the signatures each job will delete are stored in the pool under that root; every stored signer
of that message with a key is covered by the job. -/
theorem C46_session (H : Hash) (decodes : Nat → Bool) (st : State) (head : Root)
    (known : List Root) (p : Pools) (hp : p.Reached H) (slot maxJobs : Nat)
    (hl : st.historicalBlockHashes.length < historicalRootsLimit) :
    ∃ js, snapshotJobs H decodes st head known p slot maxJobs = some js ∧ js.length ≤ maxJobs ∧
      (js.map Job.root).Nodup ∧
      ∀ j ∈ js, j.root = H.attData j.data ∧
        (∀ v r, (v, r) ∈ j.keysToDelete → r = j.root ∧ sigOf p.gossip.data r v ≠ none) ∧
        (∀ v s, (v, s) ∈ j.raw → sigOf p.gossip.data j.root v = some s) ∧
        (j.keysToDelete ≠ [] → ∀ v, sigOf p.gossip.data j.root v ≠ none →
          HasKey decodes st.validators v → v ∈ j.raw.map Prod.fst ∨ v ∈ j.childIds) := by
  obtain ⟨cg, opsg, hg⟩ := hp.gossip
  obtain ⟨cp, opsp, hn⟩ := hp.new
  obtain ⟨g0, g1, g2⟩ := ggood_run (ggood_new H cg) opsg
  rw [hg] at g1; cases g1
  obtain ⟨n0, n1, n2⟩ := good_run (good_new H cp) opsp
  rw [hn] at n1; cases n1
  obtain ⟨c1, c2⟩ := candidates_spec (decodes := decodes) (vals := st.validators) g2.inv n2.inv
  have hroot : ∀ r j, (candidates H decodes st.validators p).get? r = some j → j.root = r := by
    intro r j h
    rcases c2 r j h with ⟨e, -, hj⟩ | ⟨e, -, hj⟩ <;> exact (resolveJob_spec hj).root_eq
  obtain ⟨js, h1, h2, h3, h4⟩ := jobRounds_spec (hist := st.historicalBlockHashes ++ [head])
    (known := known) (n := st.validators.length) (slot := slot) (by simp; omega) maxJobs
    _ (Projected.ofState st) c1 hroot
  refine ⟨js, h1, h2, h3, ?_⟩
  intro j hj
  rcases c2 _ _ (h4 j hj) with ⟨e, he, hr⟩ | ⟨e, he, hr⟩
  · have J := resolveJob_spec hr
    obtain ⟨ok1, -, ok3⟩ := g2.inv.ok _ _ he
    have hnd : (AMap.keys e.sigs).Nodup := by
      unfold AMap.keys
      exact ok3.imp (fun h => Nat.ne_of_lt h)
    have sig : ∀ v, sigOf p.gossip.data j.root v = AMap.get? e.sigs v := by
      intro v; unfold sigOf; rw [he]; rfl
    refine ⟨?_, ?_, ?_, ?_⟩
    · rw [J.data]; exact ok1.symm
    · intro v r hk
      obtain ⟨rfl, hv⟩ := (J.keys v r).1 hk
      refine ⟨rfl, ?_⟩
      rw [sig]
      intro hn
      exact AMap.get?_eq_none_iff.1 hn hv
    · intro v s hx
      rw [sig]
      exact AMap.get?_of_mem hnd (J.raw _ hx).1
    · intro _ v hv hk
      rw [sig] at hv
      obtain ⟨s, hs⟩ := Option.ne_none_iff_exists'.1 hv
      exact J.kept (v, s) (AMap.mem_of_get? hs) (resolves_iff.2 hk)
  · have J := resolveJob_spec hr
    refine ⟨?_, ?_, ?_, ?_⟩
    · rw [J.data]; exact (n2.inv.ok _ _ he).1.symm
    · intro v r hk
      have := (J.keys v r).1 hk
      simp at this
    · intro v s hx
      have := (J.raw _ hx).1
      cases this
    · intro hne
      exfalso
      apply hne
      apply List.eq_nil_iff_forall_not_mem.2
      rintro ⟨v, r⟩ hk
      have := (J.keys v r).1 hk
      simp at this

/-- Applying a finished group. Whatever the pools look like by then, exactly the listed signatures
disappear, and the published participants stay represented: unless its message was evicted from the
full buffer, the new buffer's proofs for the message cover them and everything covered before. -/
theorem C46_applied (H : Hash) (p : Pools) (hp : p.Reached H) (o : GroupOut) :
    ∃ p', p.apply H o = some p' ∧ p'.known = p.known ∧
      (∀ r v, sigOf p'.gossip.data r v =
        if (v, r) ∈ o.keysToDelete then none else sigOf p.gossip.data r v) ∧
      (H.attData o.data ∈ p'.new.order → ∀ v,
        (∃ q ∈ proofsFor p'.new (H.attData o.data), In v q) ↔
          In v o.proof ∨ ∃ q ∈ proofsFor p.new (H.attData o.data), In v q) ∧
      ((p.new.data.map (fun e => e.2.proofs.length)).sum < p.new.capacity →
        H.attData o.data ∈ p'.new.order) := by
  obtain ⟨cg, opsg, hg⟩ := hp.gossip
  obtain ⟨cp, opsp, hn⟩ := hp.new
  obtain ⟨n0, n1, n2⟩ := good_run (good_new H cp) opsp
  rw [hn] at n1; cases n1
  obtain ⟨b', h1, -, -, -, ⟨gone, h5, h5'⟩, -, h7⟩ := push_spec H p.new o.data o.proof n2.inv n2.bound
  obtain ⟨g', k1, k2⟩ := C22_delete_exact H cg opsg p.gossip hg o.keysToDelete
  refine ⟨{ p with new := b', gossip := g' }, ?_, rfl, k2, ?_, ?_⟩
  · unfold Pools.apply
    rw [h1, Option.bind_some, k1]; rfl
  · intro ho v
    obtain ⟨e', he', hc⟩ := h7 ho
    have a1 : proofsFor b' (H.attData o.data) = e'.proofs := by unfold proofsFor; rw [he']; rfl
    simp only [a1]
    unfold Covered at hc
    unfold In
    rw [hc v]
    unfold proofsFor
    cases hg : p.new.data.get? (H.attData o.data) with
    | none => simp
    | some e => simp [or_comm]
  · intro hlt
    have ht : p.new.total = (p.new.data.map (fun e => e.2.proofs.length)).sum := n2.inv.total
    have := h5' (by rw [ht]; exact hlt)
    subst this
    rw [List.nil_append] at h5
    simp only
    rw [← h5]
    split
    · assumption
    · exact List.mem_append_right _ (List.mem_singleton.2 rfl)

/-! ## Examples -/

namespace Ex46
def d : AttData := ⟨3, ⟨7, 2⟩, ⟨7, 2⟩, ⟨5, 0⟩⟩
/-- Five validators; the key of validator 2 does not decode. -/
def vals : List Validator := (List.range 5).map (fun k => ⟨k, k, k⟩)
def decodes : Nat → Bool := fun k => k != 2
/-- Signatures of 0, 1 and 2; proofs by {1, 3, 4}, {3} and {2, 4}. -/
def job : Option Job := resolveJob decodes vals d 9 [(0, 10), (1, 11), (2, 12)]
  [⟨[false, true, false, true, true], 20⟩, ⟨[false, false, false, true], 21⟩]
  [⟨[false, false, true, false, true], 22⟩]

/-- 1 is taken from the child only, the child naming 2 is dropped, and all three signatures go. -/
example : job.map (fun j => (j.raw, j.children)) = some ([(0, 10)], [([1, 3, 4], 20)]) ∧
    job.map (fun j => (j.childIds, j.keysToDelete.map Prod.fst)) = some ([1, 3, 4], [0, 1, 2]) := by
  decide +kernel

/-- The published aggregate is by 0, 1, 3 and 4. -/
example : (job.bind (fun j => (aggregateJob (fun _ => some 77) j).toOption)).map
    (fun o => o.map (fun o => (o.participants, o.proof.participants))) =
    some (some ([0, 1, 3, 4], [true, true, false, true, true])) := by decide +kernel

/-- Two signatures of one message and two disjoint proofs of another, both votes for the genesis
self link: a session with room for two makes both jobs, with room for one only the message of the
current slot. -/
def H : Hash := { state := fun _ => 1, header := fun _ => 2, body := fun _ => 3,
                  attData := fun d => d.slot }
def m (slot : Nat) : AttData := ⟨slot, ⟨7, 0⟩, ⟨7, 0⟩, ⟨7, 0⟩⟩
def st : State := { (default : State) with validators := vals }
def pools : Option Pools :=
  ((GossipBuffer.new 9).run H [.insert (m 4) 0 10, .insert (m 4) 1 11]).bind fun g =>
  ((PayloadBuffer.new 9).run H [.push (m 3) ⟨[true], 5⟩, .push (m 3) ⟨[false, false, false, true], 6⟩]).map fun n =>
    ⟨g, n, PayloadBuffer.new 9⟩

example : (pools.bind (fun p => snapshotJobs H decodes st 7 [7] p 4 2)).map
    (List.map (fun j => (j.root, j.raw.length, j.children.length))) =
    some [(4, 2, 0), (3, 0, 2)] := by decide +kernel
example : (pools.bind (fun p => snapshotJobs H decodes st 7 [7] p 4 1)).map
    (List.map (fun j => (j.root, j.raw.length, j.children.length))) =
    some [(4, 2, 0)] := by decide +kernel
end Ex46
end Verif.Build
