import Verif.Lemmas.JobOrder
import Verif.Props.C99_Session
import Verif.Props.C46_Aggregation
/-!
# C114: which votes an aggregator works on first, and when it starts
-/
namespace Verif.Build
open Verif Verif.Buffers

/-- What can be combined for a message: its stored signatures together with proofs, or else at least
two proofs, one of them not yet counted in fork choice. -/
inductive Combines (decodes : Nat → Bool) (vals : List Validator) (p : Pools) (r : Root) (j : Job) : Prop
  | signed {e : GEntry} : p.gossip.data.get? r = some e →
      resolveJob decodes vals e.data r e.sigs (proofsFor p.new r) (proofsFor p.known r) = some j →
      Combines decodes vals p r j
  | proofs {e : PEntry} : (∀ g, p.gossip.data.get? r = some g → resolveJob decodes vals g.data r g.sigs
        (proofsFor p.new r) (proofsFor p.known r) = none) →
      p.new.data.get? r = some e → 2 ≤ (proofsFor p.new r).length + (proofsFor p.known r).length →
      resolveJob decodes vals e.data r [] (proofsFor p.new r) (proofsFor p.known r) = some j →
      Combines decodes vals p r j

/-- The job is worth doing: its vote passes the filters of C65 and it adds voters. -/
def Worth (hist known : List Root) (n : Nat) (p : Projected) (j : Job) (sc : Score) : Prop :=
  p.passes j.data known hist = true ∧ ∃ new, p.score j.data j.coverage n = some (sc, new)

/-- Votes of the current slot first, then by the priority of C65. -/
def First (slot : Nat) (a b : Root × Job × Score) : Prop :=
  (a.2.1.data.slot = slot ∧ b.2.1.data.slot ≠ slot) ∨
  ((a.2.1.data.slot = slot ↔ b.2.1.data.slot = slot) ∧ Better (a.2.2, a.1) (b.2.2, b.1))

/-- The jobs of a session with room for `k`: one after the other, each the first among those worth
doing after the ones before it, until there is no room or none is left. -/
inductive Chosen (hist known : List Root) (n slot : Nat) :
    Nat → (Root → Job → Prop) → Projected → List Job → Prop
  | full {pool p} : Chosen hist known n slot 0 pool p []
  | done {k pool p} : (∀ r j sc, pool r j → ¬ Worth hist known n p j sc) →
      Chosen hist known n slot k pool p []
  | next {k pool p p' r j sc js} : pool r j → Worth hist known n p j sc →
      (∀ r' j' sc', pool r' j' → Worth hist known n p j' sc' →
        ¬ First slot (r', j', sc') (r, j, sc)) →
      p.advance sc.tier j.data j.coverage = some p' →
      Chosen hist known n slot k (fun r' j' => pool r' j' ∧ r' ≠ r) p' js →
      Chosen hist known n slot (k + 1) pool p (j :: js)

theorem jobScore_iff {hist known : List Root} {n : Nat} {p : Projected} {j : Job} {sc : Score} :
    jobScore hist known n p j = some sc ↔ Worth hist known n p j sc := by
  unfold jobScore Worth
  cases hp : p.passes j.data known hist with
  | false => simp
  | true =>
    simp only [not_true, if_false, true_and, Option.map_eq_some_iff, Prod.exists]
    constructor
    · rintro ⟨a, b, h, rfl⟩; exact ⟨b, h⟩
    · rintro ⟨b, h⟩; exact ⟨sc, b, h, rfl⟩

theorem first_iff {slot : Nat} {a b : Root × Job × Score} :
    First slot a b ↔ jobLt slot a b = true := by
  rw [jobLt_iff, lt_iff_better]
  unfold First bucketOf
  by_cases h1 : a.2.1.data.slot = slot <;> by_cases h2 : b.2.1.data.slot = slot <;>
    simp [h1, h2]

theorem jobRounds_chosen {hist known : List Root} {n slot : Nat} : ∀ {k : Nat} {pool : AMap Root Job}
    {p : Projected} {js : List Job}, pool.keys.Nodup → jobRounds hist known n slot k pool p = some js →
    Chosen hist known n slot k (fun r j => pool.get? r = some j) p js
  | 0, _, _, _, _, h => by cases h; exact .full
  | k + 1, pool, p, js, hn, h => by
    unfold jobRounds at h
    obtain ⟨l1, l2⟩ := pickJob_least (hist := hist) (known := known) (n := n) (slot := slot) (p := p)
      (pool := pool)
    cases hp : pickJob hist known n slot p pool with
    | none =>
      rw [hp] at h
      cases h
      refine .done fun r j sc hg hw => ?_
      have := l1 hp _ (AMap.mem_of_get? hg)
      rw [jobScore_iff.2 hw] at this
      cases this
    | some x =>
      obtain ⟨r, j, sc⟩ := x
      rw [hp] at h
      simp only at h
      obtain ⟨p', ha, h⟩ := Option.bind_eq_some_iff.1 h
      obtain ⟨js1, h1, rfl⟩ := Option.map_eq_some_iff.1 h
      obtain ⟨m1, m2⟩ := pickJob_mem hp
      have ih := jobRounds_chosen (AMap.nodup_erase hn r) h1
      refine .next (AMap.get?_of_mem hn m1) (jobScore_iff.1 m2) (fun r' j' sc' hg hw hf => ?_) ha ?_
      · exact l2 _ hp _ (AMap.mem_of_get? hg) sc' (jobScore_iff.2 hw) (first_iff.1 hf)
      · have e : (fun r' j' => (pool.erase r).get? r' = some j') =
            (fun r' j' => pool.get? r' = some j' ∧ r' ≠ r) := by
          funext r' j'
          rw [AMap.get?_erase]
          by_cases hr : r = r'
          · subst hr; simp
          · rw [if_neg hr]
            exact propext ⟨fun h => ⟨h, fun e => hr e.symm⟩, fun h => h.1⟩
        rw [← e]
        exact ih

theorem combines_iff {H : Hash} {decodes : Nat → Bool} {vals : List Validator} {p : Pools}
    (hg : GInv H p.gossip) (hp : PInv H p.new) (r : Root) (j : Job) :
    (candidates H decodes vals p).get? r = some j ↔ Combines decodes vals p r j := by
  rw [candidates_get hg hp]
  constructor
  · intro h
    split at h
    next j' hj =>
      cases h
      obtain ⟨e, he, hj⟩ := Option.bind_eq_some_iff.1 hj
      exact .signed he hj
    next hj =>
      obtain ⟨e, he, h⟩ := Option.bind_eq_some_iff.1 h
      split at h
      · cases h
      · refine .proofs (fun g hgg => ?_) he (by omega) h
        rw [hgg] at hj
        exact hj
  · rintro (⟨he, hj⟩ | ⟨h1, h2, h3, h4⟩)
    · rw [he, Option.bind_some, hj]
    · have : (p.gossip.data.get? r).bind (fun e => resolveJob decodes vals e.data r e.sigs
          (proofsFor p.new r) (proofsFor p.known r)) = none := by
        cases hgg : p.gossip.data.get? r with
        | none => rfl
        | some g => exact h1 g hgg
      rw [this, h2]
      simp only [Option.bind_some]
      rw [if_neg (by omega)]
      exact h4

theorem chosen_of_inv {H : Hash} {decodes : Nat → Bool} {st : State} {head : Root} {known : List Root}
    {p : Pools} {slot k : Nat} {js : List Job} (hg : GInv H p.gossip) (hn : PInv H p.new)
    (h : snapshotJobs H decodes st head known p slot k = some js) :
    Chosen (st.historicalBlockHashes ++ [head]) known st.validators.length slot k
      (Combines decodes st.validators p) (Projected.ofState st) js := by
  have e : Combines decodes st.validators p =
      fun r j => (candidates H decodes st.validators p).get? r = some j := by
    funext r j
    exact propext (combines_iff hg hn r j).symm
  rw [e]
  exact jobRounds_chosen (candidates_spec hg hn).1 h

/-- **C114, the order.** The jobs of a session are chosen one after the other: a vote of the current
slot first, if one is worth doing, otherwise the best by the block builder's priority, each judged
after the ones before it. It ends early only when nothing worth doing is left. -/
theorem C114_order {H : Hash} {decodes : Nat → Bool} {st : State} {head : Root} {known : List Root}
    {p : Pools} {slot k : Nat} {js : List Job} (hp : p.Reached H)
    (h : snapshotJobs H decodes st head known p slot k = some js) :
    Chosen (st.historicalBlockHashes ++ [head]) known st.validators.length slot k
      (Combines decodes st.validators p) (Projected.ofState st) js := by
  obtain ⟨cg, opsg, hg⟩ := hp.gossip
  obtain ⟨cp, opsp, hn⟩ := hp.new
  obtain ⟨g0, g1, g2⟩ := ggood_run (ggood_new H cg) opsg
  rw [hg] at g1; cases g1
  obtain ⟨n0, n1, n2⟩ := good_run (good_new H cp) opsp
  rw [hn] at n1; cases n1
  exact chosen_of_inv g2.inv n2.inv h

theorem first_total {slot : Nat} {a b : Root × Job × Score} (h : a.1 ≠ b.1) :
    First slot a b ∨ First slot b a := by
  unfold First
  rw [← lt_iff_better, ← lt_iff_better]
  have := key_lt_total (a.2.2.key a.1) (b.2.2.key b.1)
  rw [key_root, key_root] at this
  by_cases h1 : a.2.1.data.slot = slot <;> by_cases h2 : b.2.1.data.slot = slot <;>
    simp [h1, h2]
  all_goals (rcases this with h' | h' | h'; exact .inl h'; exact .inr h'; exact absurd h' h)

/-- **C114, no choice is left to the hash map.** The order determines the jobs. -/
theorem C114_unique {hist known : List Root} {n slot : Nat} : ∀ {k : Nat} {pool : Root → Job → Prop}
    {p : Projected} {js js' : List Job}, (∀ r j j', pool r j → pool r j' → j = j') →
    Chosen hist known n slot k pool p js → Chosen hist known n slot k pool p js' → js = js' := by
  intro k pool p js js' hf h h'
  induction h generalizing js' with
  | full => cases h'; rfl; rfl
  | done hd =>
    cases h' with
    | full => rfl
    | done => rfl
    | next a b => exact absurd b (hd _ _ _ a)
  | @next k pool p p' r j sc js a b c d e ih =>
    cases h' with
    | done hd => exact absurd b (hd _ _ _ a)
    | @next _ _ _ p2 r2 j2 sc2 js2 a2 b2 c2 d2 e2 =>
      have hr : r = r2 := by
        by_contra hne
        rcases first_total (slot := slot) (a := (r, j, sc)) (b := (r2, j2, sc2)) hne with h1 | h1
        · exact c2 _ _ _ a b h1
        · exact c _ _ _ a2 b2 h1
      subst hr
      have hj := hf _ _ _ a a2
      subst hj
      obtain ⟨-, new, s1⟩ := b
      obtain ⟨-, new2, s2⟩ := b2
      have hs : sc = sc2 := by
        rw [s1] at s2
        exact (Prod.mk.inj (Option.some.inj s2)).1
      subst hs
      rw [d] at d2
      cases d2
      rw [ih (fun r' j1 j2 h1 h2 => hf r' j1 j2 h1.1 h2.1) e2]

/-- **C114, nothing is overlooked.** If two stored signers of a message have keys and no single proof
at hand covers all such signers, the message has a job to choose. -/
theorem C114_found {decodes : Nat → Bool} {vals : List Validator} {p : Pools} {r : Root} {v w : Nat}
    (hv : sigOf p.gossip.data r v ≠ none) (hw : sigOf p.gossip.data r w ≠ none) (hne : v ≠ w)
    (kv : HasKey decodes vals v) (kw : HasKey decodes vals w)
    (hq : ∀ q ∈ proofsFor p.new r ++ proofsFor p.known r, ∃ x, sigOf p.gossip.data r x ≠ none ∧
      HasKey decodes vals x ∧ ¬ In x q) :
    ∃ j, Combines decodes vals p r j := by
  unfold sigOf at hv hw hq
  cases he : p.gossip.data.get? r with
  | none => rw [he] at hv; exact absurd rfl hv
  | some e =>
    rw [he] at hv hw
    simp only [he] at hq
    have mem : ∀ x, ((some e : Option GEntry).bind (fun e => AMap.get? e.sigs x)) ≠ none →
        ∃ s, (x, s) ∈ e.sigs := by
      intro x hx
      obtain ⟨s, hs⟩ := Option.ne_none_iff_exists'.1 hx
      exact ⟨s, AMap.mem_of_get? hs⟩
    cases hj : resolveJob decodes vals e.data r e.sigs (proofsFor p.new r) (proofsFor p.known r) with
    | some j => exact ⟨j, .signed he hj⟩
    | none =>
      obtain ⟨s1, h1⟩ := mem v hv
      obtain ⟨s2, h2⟩ := mem w hw
      rcases resolveJob_none hj with h | ⟨q, hm, h⟩
      · exact absurd (h _ h1 _ h2 (resolves_iff.2 kv) (resolves_iff.2 kw)) hne
      · obtain ⟨x, hx, kx, hi⟩ := hq q hm
        obtain ⟨s, hs⟩ := mem x hx
        exact absurd (h _ hs (resolves_iff.2 kx)) hi

end Verif.Build

namespace Verif.Node
open Verif Verif.Db Verif.Sync Verif.Buffers Verif.Build

/-- The jobs of a session of a node for a slot: chosen from what the node holds, judged by the state
of its head, one job if one of its validators proposes the next block, else two. -/
def SessionOf (c : VCtx) (n : ANode) (slot : Nat) (js : List Job) : Prop :=
  let s := n.node.actor.store
  ∃ st k, (∃ m, Db.getState s.mem s.mem.db.head = .ok (some st, m)) ∧
    ((∃ v ∈ c.ids, isProposer v (slot + 1) st.validators.length = true) ∧
      n.node.sync.dutiesAllowed = true → k = 1) ∧
    (¬ ((∃ v ∈ c.ids, isProposer v (slot + 1) st.validators.length = true) ∧
      n.node.sync.dutiesAllowed = true) → k = 2) ∧
    Chosen (st.historicalBlockHashes ++ [s.mem.db.head]) (s.mem.db.liveChain.map (fun e => e.1.2))
      st.validators.length slot k
      (Combines (fun b => (c.X.decodeKey b).isSome) st.validators ⟨s.gossip, s.newP, s.knownP⟩)
      (Projected.ofState st) js

section
variable {c : VCtx} {u : Subnets} {a0 : State} {body : Option (List AggAtt)} {t : Nat}
  {vals : List Validator} {bs : List Block}

theorem cancel_length (n : ANode) : n.cancel.workers.length = n.workers.length := by
  obtain ⟨k, e | e⟩ := cancel_workers n <;> rw [e]
  rw [List.length_modify]

theorem headState_repr {H : Hash} {s s' : Store} {st : State} {G : Root → Option State}
    (R : Db.Repr H s.mem G) (h : headState s = .ok (st, s')) :
    G s.mem.db.head = some st ∧ (s'.mem.db = s.mem.db ∧ s'.newP = s.newP ∧ s'.knownP = s.knownP ∧
      s'.gossip = s.gossip) ∧ Db.Repr H s'.mem G := by
  obtain ⟨c, hg, Rc⟩ := getState_repr R s.mem.db.head
  unfold headState at h
  split at h
  · cases h
  · cases h
  next e =>
    cases h
    have := getState_frame e
    unfold Store.getState at e
    rw [hg] at e
    simp only at e
    cases h2 : G s.mem.db.head with
    | none => rw [h2] at e; cases e
    | some y =>
      rw [h2] at e
      cases e
      exact ⟨rfl, ⟨this.1, this.2.2.1, this.2.2.2.1, this.2.2.2.2.1⟩, Rc⟩

theorem ofMs_aggregation (ms : Nat) :
    Interval.ofMs ms = some .aggregation ↔ 1600 ≤ ms % 4000 ∧ ms % 4000 < 2400 := by
  have e : ms / msPerInterval % intervalsPerSlot = ms / 800 % 5 := rfl
  have hk : ms / 800 % 5 = 2 ↔ 1600 ≤ ms % 4000 ∧ ms % 4000 < 2400 := by omega
  rw [← hk]
  unfold Interval.ofMs Interval.ofCount
  rw [e]
  have h5 : ms / 800 % 5 < 5 := Nat.mod_lt _ (by decide)
  generalize ms / 800 % 5 = x at h5
  match x, h5 with
  | 0, _ => simp
  | 1, _ => simp
  | 2, _ => simp
  | 3, _ => simp
  | 4, _ => simp

/-- A session that is started has its jobs chosen as it should. -/
theorem start_session {n n' : ANode} {slot : Nat} {G : Root → Option State}
    (hb : BInv c.H n.node.actor.store) (R : Db.Repr c.H n.node.actor.store.mem G)
    (h : n.start c slot = .ok n') :
    ∃ js, SessionOf c n' slot js ∧
      ((js = [] ∧ n'.current = none ∧ n'.workers = n.cancel.workers) ∨
       (js ≠ [] ∧ n'.current = some (slot, n.workers.length) ∧ ∃ w, n'.workers = n.cancel.workers ++ [w] ∧
        w.id = slot ∧ w.jobs = js ∧ w.job = none ∧ w.cancelled = false)) := by
  unfold ANode.start at h
  simp only at h
  obtain ⟨h1, h2, h3⟩ := cancel_node n
  rw [h1] at h
  split at h
  · cases h
  next js vals s e =>
  have hn : n'.node = { n.node with actor := { n.node.actor with store := s } } := by
    split at h <;> cases h <;> rfl
  refine ⟨js, ?_, ?_⟩
  · unfold SessionOf
    rw [hn]
    simp only
    unfold sessionJobs at e
    split at e
    · cases e
    next p s1 e1 =>
    simp only at e
    split at e
    · cases e
    next st s2 e2 =>
    split at e
    · cases e
    next js' e3 =>
    obtain ⟨rfl, rfl, rfl⟩ : js' = js ∧ st.validators = vals ∧ s2 = s := by
      have := Except.ok.inj e
      simp only [Prod.mk.injEq] at this
      exact this
    unfold ourProposer at e1
    split at e1
    · cases e1
    next st0 s0 e0 =>
    cases e1
    obtain ⟨r1, f1, R1⟩ := headState_repr R e0
    obtain ⟨r2, f2, R2⟩ := headState_repr R1 e2
    obtain ⟨f11, f12, f13, f14⟩ := f1
    obtain ⟨f21, f22, f23, f24⟩ := f2
    have hst : st0 = st := by
      rw [f11] at r2
      rw [r2] at r1
      exact (Option.some.inj r1).symm
    subst hst
    obtain ⟨c3, g3, -⟩ := getState_repr R2 s2.mem.db.head
    rw [f21, r2] at g3
    refine ⟨st0, _, ⟨_, by rw [f21]; exact g3⟩, fun hk => ?_, fun hk => ?_,
      chosen_of_inv (by rw [f24, f14]; exact hb.gossip) (by rw [f22, f12]; exact hb.new.inv) e3⟩
    · obtain ⟨⟨v, hv, hp⟩, hd⟩ := hk
      rw [if_pos]
      rw [Bool.and_eq_true]
      exact ⟨List.find?_isSome.2 ⟨v, hv, hp⟩, hd⟩
    · rw [if_neg]
      · rfl
      · intro hc
        rw [Bool.and_eq_true] at hc
        exact hk ⟨List.find?_isSome.1 hc.1, hc.2⟩
  · split at h
    next hj => cases h; exact .inl ⟨List.isEmpty_iff.1 hj, rfl, rfl⟩
    next hj =>
      cases h
      exact .inr ⟨fun e => hj (by rw [e]; rfl), by rw [← cancel_length n], _, rfl, rfl, rfl, rfl, rfl⟩

/-- **C114, when.** On a tick that is not skipped, in the third interval of a slot, a node in the
aggregator role that has no session for the slot yet starts one, unless there is nothing worth doing;
the session's jobs are chosen as stated. Otherwise the tick leaves sessions alone. -/
theorem C114_tick {n m m' : ANode} {aevs : List AEvent} {out l : List Signed} {pub p : List Published}
    {now : Nat} {agg : Bool} (ho : ∀ l, (c.order l).Perm l)
    (h0 : n.Fresh c a0 body) (h : ANRun c u n aevs m out pub)
    (e : m.step c u (.timer now agg) = .ok (m', l, p))
    (W : World (envOf c.X c.H) t vals bs a0
      (HeaderIn c.H (State.fromGenesis c.H t vals) bs (.timer now agg :: aevs) (out ++ l))) :
    let ms := now - m.node.actor.store.genesisTime * 1000
    let due := agg = true ∧ (m.node.actor.store.mem.db.time = 0 ∨
      m.node.actor.store.mem.db.time < ms / 800) ∧ 1600 ≤ ms % 4000 ∧ ms % 4000 < 2400 ∧
      ∀ k, m.current ≠ some (ms / 4000, k)
    (¬ due → m'.current = m.current ∧ m'.workers = m.workers) ∧
    (due → ∃ js, SessionOf c m' (ms / 4000) js ∧
      ((js = [] ∧ m'.current = none ∧ m'.workers.length = m.workers.length) ∨
       (js ≠ [] ∧ m'.current = some (ms / 4000, m.workers.length) ∧
        m'.workers.length = m.workers.length + 1 ∧
        ∃ w, m'.workers[m.workers.length]? = some w ∧ w.id = ms / 4000 ∧ w.jobs = js ∧
          w.job = none ∧ w.cancelled = false))) := by
  intro ms due
  obtain ⟨evs, K, k1, -⟩ := h.kept h0
  unfold ANode.step at e
  simp only at e
  split at e
  · cases e
  next x l' e1 =>
  obtain ⟨evs1, r1, hx⟩ := tick_run e1
  have R : AReach c.ctx a0 body (evs1 ++ evs) x.actor := by
    rw [hx]; exact r1.areach (fun ev he => he.notBlock) K.reach
  split at e
  · cases e
  next n2 e2 =>
  cases e
  have W' : World (envOf c.X c.H) t vals bs a0
      (Known c.H (State.fromGenesis c.H t vals) bs (evs1 ++ evs)) := by
    refine Accounted.world (aevs := .timer now agg :: aevs) (out := out ++ l) (pub := pub)
      (E := envOf c.X c.H) (fun y hy => ?_) W
    rcases List.mem_append.1 hy with hy | hy
    · exact .inr (.inl ⟨agg, (r1.all y hy).mono (List.subset_append_right _ _)⟩)
    · exact (k1 y hy).mono (List.subset_cons_self _ _) (List.subset_append_left _ _)
        (List.Subset.refl _)
  obtain ⟨evs', rr, -, W''⟩ := areach_reach (c := c.ctx) ho W' R
  obtain ⟨root, anchor, ops, A, I⟩ := reach_ninv W'' rr eventK_known
  have e3 : ms / msPerInterval = ms / 800 := rfl
  have e4 : ms / msPerSlot = ms / 4000 := rfl
  unfold ANode.tickSession at e2
  simp only at e2
  have hcur : m.current.map Prod.fst ≠ some (ms / 4000) ↔ ∀ k, m.current ≠ some (ms / 4000, k) := by
    constructor
    · intro h k hk
      rw [hk] at h
      exact h rfl
    · intro h hk
      obtain ⟨y, hy, hf⟩ := Option.map_eq_some_iff.1 hk
      exact h y.2 (by rw [hy, ← hf])
  split at e2
  next hs =>
    cases e2
    refine ⟨fun _ => ⟨rfl, rfl⟩, fun hd => ?_⟩
    obtain ⟨-, hd, -⟩ := hd
    obtain ⟨h1, h2⟩ := hs
    rw [e3] at h2
    omega
  next hs =>
  split at e2
  next hc =>
    obtain ⟨c1, c2, c3⟩ := hc
    obtain ⟨c11, c12⟩ := (ofMs_aggregation _).1 c1
    have hdue : due := ⟨c2, by
      by_contra hn
      apply hs
      rw [e3]
      omega, c11, c12, hcur.1 c3⟩
    refine ⟨fun hn => absurd hdue hn, fun _ => ?_⟩
    obtain ⟨js, s1, s2⟩ := start_session (n := { m with node := x }) I.1.buf (I.1.inv W'').repr e2
    refine ⟨js, s1, ?_⟩
    rcases s2 with ⟨q1, q2, q3⟩ | ⟨q1, q2, w, q3, q4⟩
    · exact .inl ⟨q1, q2, by rw [q3, cancel_length]⟩
    · refine .inr ⟨q1, q2, ?_, w, ?_, q4⟩
      · rw [q3, List.length_append, cancel_length, List.length_singleton]
      · rw [q3, List.getElem?_append_right (Nat.le_of_eq (cancel_length _)), cancel_length]
        simp
  next hc =>
    cases e2
    refine ⟨fun _ => ⟨rfl, rfl⟩, fun hd => ?_⟩
    obtain ⟨d1, d2, d3, d4, d5⟩ := hd
    exact absurd ⟨(ofMs_aggregation _).2 ⟨d3, d4⟩, d1, hcur.2 d5⟩ hc

/-- **C114, the role.** Nothing but a tick, a vote or an early check in the aggregator role starts a
session. -/
theorem C114_role {n n' : ANode} {ev : AEvent} {l : List Signed} {p : List Published}
    (h : n.step c u ev = .ok (n', l, p)) (hw : n.workers.length < n'.workers.length) :
    ∃ now, ev = .timer now true ∨ ev = .check now true ∨
      ∃ v d sig, ev = .attestation v d sig now true := by
  have early : ∀ {x x' : ANode} {now : Nat}, x.early c u now false = .ok x' →
      x'.workers.length = x.workers.length := by
    intro x x' now e
    unfold ANode.early at e
    rw [if_pos (by decide)] at e
    cases e; rfl
  have oth : ∀ {x x' : ANode} {ev : Event}, x.other c ev = .ok x' →
      x'.workers.length = x.workers.length := by
    intro x x' ev e
    unfold ANode.other at e
    split at e
    · cases e
    · cases e; rfl
  have omap : ∀ {y : P ANode}, y.map (fun n => (n, ([] : List Signed), ([] : List Published))) =
      .ok (n', l, p) → y = .ok n' := by
    intro y e
    cases y with
    | error k => cases e
    | ok z => cases e; rfl
  cases ev with
  | timer now agg =>
    cases agg with
    | true => exact ⟨now, .inl rfl⟩
    | false =>
      exfalso
      unfold ANode.step at h
      simp only at h
      split at h
      · cases h
      split at h
      · cases h
      next n2 e2 =>
      cases h
      unfold ANode.tickSession at e2
      simp only at e2
      split at e2
      · cases e2; exact Nat.lt_irrefl _ hw
      · rw [if_neg (by rintro ⟨-, h, -⟩; cases h)] at e2
        cases e2; exact Nat.lt_irrefl _ hw
  | block sb => exact absurd (oth (omap h)) (by omega)
  | aggregate d a => exact absurd (oth (omap h)) (by omega)
  | attestation v d sig now agg =>
    cases agg with
    | true => exact ⟨now, .inr (.inr ⟨v, d, sig, rfl⟩)⟩
    | false =>
      exfalso
      unfold ANode.step at h
      simp only at h
      split at h
      · cases h
      next n1 e1 =>
      have := oth e1
      split at h
      · have := early (omap h)
        omega
      · cases h; omega
  | check now agg =>
    cases agg with
    | true => exact ⟨now, .inr (.inl rfl)⟩
    | false => exact absurd (early (now := now) (omap h)) (by omega)
  | begin k =>
    cases h
    simp only [List.length_modify] at hw
    omega
  | finish k now =>
    exfalso
    unfold ANode.step at h
    simp only at h
    split at h
    · cases h; omega
    · cases h
      simp only [List.length_set] at hw
      omega
  | deliver k now =>
    exfalso
    unfold ANode.step at h
    simp only at h
    split at h
    · cases h; omega
    split at h
    · cases h; omega
    split at h
    · cases h
    next n1 l1 e1 =>
    cases h
    unfold ANode.take at e1
    split at e1
    · cases e1; exact Nat.lt_irrefl _ hw
    split at e1
    · cases e1
    next n3 e3 =>
    cases e1
    have := oth e3
    simp only at this
    omega
  | deadline id =>
    exfalso
    cases h
    split at hw
    · rw [cancel_length] at hw; omega
    · omega
  | restart =>
    exfalso
    unfold ANode.step at h
    cases e1 : n.other c .restart with
    | error k => simp only [e1] at h; cases h
    | ok x => simp only [e1] at h; cases h; simp at hw


end

namespace Witness
open Verif.Witness

/-- Block 1 and two votes arrive early in the slot; the tick of the third interval starts the session. -/
def tickEvs : List AEvent :=
  [ .attestation 1 (vote [] 0 1).data 1 4950 true, .attestation 0 (vote [] 0 1).data 1 4920 true,
    .timer 4900 true, .block (sgn (mkBlock 1 0 [])), .timer 4000 true ]

def tickOut : List Signed := match anrun sessCtx oneSubnet sessNode (.timer 5600 true :: tickEvs) with
  | .ok (_, out, _) => out
  | .error _ => []

/-- The current session, and of each worker its slot, the number of its jobs and their raw signers. -/
def sessionSeen (r : P (ANode × List Signed × List Published)) :
    Option (Option (Nat × Nat) × List (Nat × Nat × List Nat)) :=
  r.toOption.map (fun x => (x.1.current,
    x.1.workers.map (fun w => (w.id, w.jobs.length, w.jobs.flatMap (fun j => j.raw.map Prod.fst)))))

/-- Non-vacuity of `C114_tick` and `C114_role`: before the tick there is no session, after it there is
one for slot 1 with both signatures. -/
example : sessNode.Fresh sessCtx wG (some []) ∧ (∀ l, (sessCtx.order l).Perm l) ∧
    (∃ m out pub m' l p, ANRun sessCtx oneSubnet sessNode tickEvs m out pub ∧
      m.step sessCtx oneSubnet (.timer 5600 true) = .ok (m', l, p) ∧ tickOut = out ++ l ∧
      m.current = none ∧ m'.current = some (1, 0) ∧ m.workers.length < m'.workers.length) ∧
    World (envOf wX wH) 0 wVals [] wG (HeaderIn wH wG [] (.timer 5600 true :: tickEvs) tickOut) ∧
    sessionSeen (anrun sessCtx oneSubnet sessNode (.timer 5600 true :: tickEvs)) =
      some (some (1, 0), [(1, 1, [0, 1])]) := by
  have h1 : sessionSeen (anrun sessCtx oneSubnet sessNode tickEvs) = some (none, []) := by
    decide +kernel
  have h2 : sessionSeen (anrun sessCtx oneSubnet sessNode (.timer 5600 true :: tickEvs)) =
      some (some (1, 0), [(1, 1, [0, 1])]) := by decide +kernel
  refine ⟨sessNode_fresh, fun l => .refl _, ?_,
    world_asEvents (rWorld (by decide +kernel) (by decide +kernel)), h2⟩
  unfold tickOut
  cases e : anrun sessCtx oneSubnet sessNode tickEvs with
  | error x => rw [e] at h1; cases h1
  | ok x =>
    obtain ⟨m, out, pub⟩ := x
    cases e2 : m.step sessCtx oneSubnet (.timer 5600 true) with
    | error k => unfold anrun at h2; rw [e] at h2; simp only [e2] at h2; cases h2
    | ok y =>
      obtain ⟨m', l, p⟩ := y
      have e3 : anrun sessCtx oneSubnet sessNode (.timer 5600 true :: tickEvs) =
          .ok (m', out ++ l, pub ++ p) := by
        unfold anrun
        rw [e]
        simp only [e2]
      rw [e] at h1
      rw [e3] at h2
      simp only [e3]
      have a1 := Prod.mk.inj (Option.some.inj h1)
      have a2 := Prod.mk.inj (Option.some.inj h2)
      refine ⟨m, out, pub, m', l, p, anrun_run e, e2, rfl, a1.1, a2.1, ?_⟩
      have b1 := congrArg List.length a1.2
      have b2 := congrArg List.length a2.2
      simp only [List.length_map, List.length_nil, List.length_cons] at b1 b2
      omega

end Witness
end Verif.Node

namespace Verif.Build.Ex46
open Verif Verif.Buffers

/-- Non-vacuity of `C114_order`: two messages worth doing, the one of the current slot comes first
although the other has as many voters and the smaller root. -/
example : ∃ p, pools = some p ∧ p.Reached H ∧
    (snapshotJobs H decodes st 7 [7] p 4 2).map (List.map Job.root) = some [4, 3] ∧
    (snapshotJobs H decodes st 7 [7] p 3 2).map (List.map Job.root) = some [3, 4] := by
  have h : (pools.bind (fun p => snapshotJobs H decodes st 7 [7] p 4 2)).map (List.map Job.root) =
      some [4, 3] := by decide +kernel
  have h' : (pools.bind (fun p => snapshotJobs H decodes st 7 [7] p 3 2)).map (List.map Job.root) =
      some [3, 4] := by decide +kernel
  cases e : pools with
  | none => rw [e] at h; cases h
  | some p =>
    rw [e] at h h'
    refine ⟨p, rfl, ?_, h, h'⟩
    unfold pools at e
    obtain ⟨g, hg, e⟩ := Option.bind_eq_some_iff.1 e
    obtain ⟨n, hn, rfl⟩ := Option.map_eq_some_iff.1 e
    exact ⟨⟨9, _, hg⟩, ⟨9, _, hn⟩, ⟨9, [], rfl⟩⟩

/-- Non-vacuity of `C114_found`: validators 0 and 1 signed message 4, and there is no proof of it. -/
example : ∃ p, pools = some p ∧ (sigOf p.gossip.data 4 0).isSome = true ∧
    (sigOf p.gossip.data 4 1).isSome = true ∧ (proofsFor p.new 4).length + (proofsFor p.known 4).length = 0 := by
  have h : (pools.map (fun p => ((sigOf p.gossip.data 4 0).isSome, (sigOf p.gossip.data 4 1).isSome,
      (proofsFor p.new 4).length + (proofsFor p.known 4).length))) = some (true, true, 0) := by
    decide +kernel
  cases e : pools with
  | none => rw [e] at h; cases h
  | some p =>
    rw [e] at h
    simp only [Option.map_some, Option.some.injEq, Prod.mk.injEq] at h
    exact ⟨p, rfl, h⟩

end Verif.Build.Ex46
