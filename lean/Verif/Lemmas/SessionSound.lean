import Verif.Lemmas.SessionCount
import Verif.Props.C83_PoolValid
/-!
# What the aggregates of a node's sessions are made of, and the clock of its messages
-/
namespace Verif.Node
open Verif Verif.Db Verif.Sync Verif.Buffers Verif.Build

section
variable {c : VCtx} {u : Subnets} {a0 : State} {body : Option (List AggAtt)} {t : Nat}
  {vals : List Validator} {bs : List Block}

/-! ## The history of the actor in terms of the run -/

theorem Accounted.arrived {aevs : List AEvent} {out : List Signed} {pub : List Published}
    {evs : List Event} (h : ∀ x ∈ evs, Accounted aevs out pub x) {sb : SignedBlock}
    (hs : Arrived evs sb) : Brought aevs out sb := by
  rcases hs with hs | hs
  · rcases h _ hs with ⟨x, hx, e⟩ | ⟨agg, e⟩ | ⟨p, hp, keys, e⟩
    · cases x with
      | block sb' => cases e; exact .inl hx
      | _ => cases e
    · exact e.elim
    · cases e
  · rcases h _ hs with ⟨x, hx, e⟩ | ⟨agg, e⟩ | ⟨p, hp, keys, e⟩
    · cases x <;> cases e
    · exact .inr e
    · cases e

theorem Accounted.occurs {aevs : List AEvent} {out : List Signed} {pub : List Published}
    {evs : List Event} (h : ∀ x ∈ evs, Accounted aevs out pub x) {d : AttData}
    (hd : Occurs evs d) : VoteIn aevs out d := by
  rcases hd with ⟨sb, hs, ha⟩ | ⟨v, sig, agg, hs⟩ | ⟨g, hs⟩
  · exact .inl ⟨sb, Accounted.arrived h hs, ha⟩
  · rcases h _ hs with ⟨x, hx, e⟩ | ⟨agg', e⟩ | ⟨p, hp, keys, e⟩
    · cases x with
      | attestation => cases e; exact .inr (.inl ⟨_, _, _, _, hx⟩)
      | _ => cases e
    · exact .inr (.inr (.inr ⟨v, sig, e.2.2⟩))
    · cases e
  · rcases h _ hs with ⟨x, hx, e⟩ | ⟨agg', e⟩ | ⟨p, hp, keys, e⟩
    · cases x with
      | aggregate => cases e; exact .inr (.inr (.inl ⟨_, hx⟩))
      | _ => cases e
    · exact e.elim
    · cases e

theorem Accounted.world {aevs : List AEvent} {out : List Signed} {pub : List Published}
    {evs : List Event} (h : ∀ x ∈ evs, Accounted aevs out pub x) {E : Env}
    (W : World E t vals bs a0 (HeaderIn E.H (State.fromGenesis E.H t vals) bs aevs out)) :
    World E t vals bs a0 (Known E.H (State.fromGenesis E.H t vals) bs evs) := by
  refine W.weaken ?_ (.inl rfl) (fun b hb => .inr (.inl ⟨b, hb, rfl⟩))
  rintro x (rfl | ⟨b, hb, rfl⟩ | ⟨sb, hs, rfl⟩)
  · exact W.genesis
  · exact W.old b hb
  · exact .inr (.inr ⟨sb, Accounted.arrived h hs, rfl⟩)

theorem Accounted.noCollision {aevs : List AEvent} {out : List Signed} {pub : List Published}
    {evs : List Event} (h : ∀ x ∈ evs, Accounted aevs out pub x) {H : Hash}
    (hN : RunInjective H aevs out) : NoCollision H evs := by
  refine ⟨fun d d' h1 h2 => hN.votes d d' (Accounted.occurs h h1) (Accounted.occurs h h2),
    fun l l' h1 h2 => hN.bodies l l' ?_ ?_⟩
  · rcases h1 with h1 | ⟨sb, h1, h3⟩
    · exact .inl h1
    · exact .inr ⟨sb, Accounted.arrived h h1, h3⟩
  · rcases h2 with h1 | ⟨sb, h1, h3⟩
    · exact .inl h1
    · exact .inr ⟨sb, Accounted.arrived h h1, h3⟩

/-! ## The jobs of a session -/

theorem OwnMade.suffix {X : Crypto} {k : Ctx} {prove : List Validator → Job → Option Nat}
    {evs evs' : List Event} (hs : evs' <:+ evs) (h : OwnMade X k prove a0 body evs) :
    OwnMade X k prove a0 body evs' := fun d g keys evs1 h1 => h d g keys evs1 (h1.trans hs)

/-- The outputs of jobs are as asked of the pools. -/
theorem MadeJobs.output {evs : List Event} {jobs : List Job} {j : Job} {out : GroupOut}
    {vals' : List Validator}
    {P : AttData → Agg → Prop} {G : Nat → AttData → Nat → Prop} {V : Nat → AttData → Prop}
    (ho : ∀ l, (c.order l).Perm l)
    (W : World (envOf c.X c.H) t vals bs a0 (Known c.H (State.fromGenesis c.H t vals) bs evs))
    (L : ∀ evs', evs' <:+ evs → Laws c.ctx vals (Arrived evs') (Occurs evs') P G V)
    (own : ∀ D j out, JobOk c.H D P G j → aggregateJob (proveJob c.X vals) j = .ok (some out) →
      P j.data out.proof)
    (hown : OwnMade c.X c.ctx (proveJob c.X) a0 body evs)
    (h : MadeJobs c a0 body evs vals' jobs) (hj : j ∈ jobs)
    (hout : aggregateJob (proveJob c.X vals') j = .ok (some out)) : P out.data out.proof := by
  obtain ⟨evs0, a1, st, known, slot, n, h0, h1, ⟨m, h2⟩, h3, rfl⟩ := h
  have W0 : World (envOf c.X c.H) t vals bs a0
      (Known c.H (State.fromGenesis c.H t vals) bs evs0) := by
    refine W.weaken ?_ (.inl rfl) (fun b hb => .inr (.inl ⟨b, hb, rfl⟩))
    rintro x (rfl | ⟨b, hb, rfl⟩ | ⟨sb, hs | hs, rfl⟩)
    · exact W.genesis
    · exact W.old b hb
    · exact .inr (.inr ⟨sb, .inl (h0.subset hs), rfl⟩)
    · exact .inr (.inr ⟨sb, .inr (h0.subset hs), rfl⟩)
  obtain ⟨hh, root, anchor, ops, A, I⟩ := areach_held (c := c.ctx) (X := c.X)
    (prove := proveJob c.X) ho W0 (L evs0 h0) (fun j out => own _ j out) (hown.suffix h0) h1
  have hv : st.validators = vals := state_vals W0 I ((I.reads W0 _ _).1 ⟨m, h2⟩)
  obtain ⟨k1, k2, k3, k4, k5, k6⟩ := job_material (L evs0 h0).inj hh I.buf h3 hj
  rw [hv] at hout
  have := own _ j out ⟨k1, k2, k3, k4, k5, k6⟩ hout
  rwa [(C46_published _ _ _ hout).1]

theorem jobRounds_nodup {hist known : List Root} {n slot : Nat} : ∀ {k : Nat} {pool : AMap Root Job}
    {p : Projected} {js : List Job}, pool.keys.Nodup → (∀ r j, pool.get? r = some j → j.root = r) →
    jobRounds hist known n slot k pool p = some js → (js.map Job.root).Nodup
  | 0, _, _, _, _, _, h => by cases h; exact List.nodup_nil
  | k + 1, pool, p, js, hn, hr, h => by
    unfold jobRounds at h
    cases hp : pickJob hist known n slot p pool with
    | none => rw [hp] at h; cases h; exact List.nodup_nil
    | some x =>
      obtain ⟨r, j1, sc⟩ := x
      rw [hp] at h
      simp only at h
      obtain ⟨p', -, h⟩ := Option.bind_eq_some_iff.1 h
      obtain ⟨js1, h1, rfl⟩ := Option.map_eq_some_iff.1 h
      have hr' : ∀ r' j', (pool.erase r).get? r' = some j' → j'.root = r' := by
        intro r' j' h'
        rw [AMap.get?_erase] at h'
        split at h'
        · cases h'
        · exact hr _ _ h'
      rw [List.map_cons]
      refine List.nodup_cons.2 ⟨fun hmem => ?_, jobRounds_nodup (AMap.nodup_erase hn r) hr' h1⟩
      obtain ⟨j', hj', he⟩ := List.mem_map.1 hmem
      obtain ⟨r', h'⟩ := jobRounds_mem (AMap.nodup_erase hn r) h1 j' hj'
      have e1 := hr' _ _ h'
      have e2 := hr _ _ (AMap.get?_of_mem hn (pickJob_mem hp).1)
      rw [AMap.get?_erase, if_pos (by rw [← e1, he, e2])] at h'
      cases h'

/-- No two jobs of a session are about the same vote. -/
theorem MadeJobs.nodup {evs : List Event} {jobs : List Job} {vals' : List Validator}
    (ho : ∀ l, (c.order l).Perm l)
    (W : World (envOf c.X c.H) t vals bs a0 (Known c.H (State.fromGenesis c.H t vals) bs evs))
    (h : MadeJobs c a0 body evs vals' jobs) : (jobs.map Job.data).Nodup := by
  obtain ⟨evs0, a1, st, known, slot, n, h0, h1, ⟨m, h2⟩, h3, rfl⟩ := h
  have W0 : World (envOf c.X c.H) t vals bs a0
      (Known c.H (State.fromGenesis c.H t vals) bs evs0) := by
    refine W.weaken ?_ (.inl rfl) (fun b hb => .inr (.inl ⟨b, hb, rfl⟩))
    rintro x (rfl | ⟨b, hb, rfl⟩ | ⟨sb, hs | hs, rfl⟩)
    · exact W.genesis
    · exact W.old b hb
    · exact .inr (.inr ⟨sb, .inl (h0.subset hs), rfl⟩)
    · exact .inr (.inr ⟨sb, .inr (h0.subset hs), rfl⟩)
  have hb : BInv c.H a1.store := by
    obtain ⟨evs', r, -, W'⟩ := areach_reach (c := c.ctx) ho W0 h1
    obtain ⟨root, anchor, ops, A, I⟩ := reach_ninv W' r eventK_known
    exact I.1.buf
  obtain ⟨c1, c2⟩ := candidates_spec (H := c.H) (decodes := fun b => (c.X.decodeKey b).isSome)
    (vals := st.validators) (p := ⟨a1.store.gossip, a1.store.newP, a1.store.knownP⟩)
    hb.gossip hb.new.inv
  have hroot : ∀ r j, (candidates c.H (fun b => (c.X.decodeKey b).isSome) st.validators
      ⟨a1.store.gossip, a1.store.newP, a1.store.knownP⟩).get? r = some j →
      j.root = r ∧ c.H.attData j.data = r := by
    intro r j h
    rcases c2 r j h with ⟨e, he, hj⟩ | ⟨e, he, hj⟩ <;> have J := resolveJob_spec hj
    · exact ⟨J.root_eq, by rw [J.data]; exact (hb.gossip.ok _ _ he).1⟩
    · exact ⟨J.root_eq, by rw [J.data]; exact (hb.new.inv.ok _ _ he).1⟩
  have hn := jobRounds_nodup c1 (fun r j h => (hroot r j h).1) h3
  have hd : jobs.map Job.root = (jobs.map Job.data).map c.H.attData := by
    rw [List.map_map]
    refine List.map_congr_left fun j hj => ?_
    obtain ⟨r, hr⟩ := jobRounds_mem c1 h3 j hj
    exact (hroot r j hr).1.trans (hroot r j hr).2.symm
  rw [hd] at hn
  exact List.Nodup.of_map _ hn

/-! ## The clock -/

theorem step_genesis {n n' : ANode} {ev : AEvent} {l : List Signed} {p : List Published}
    (e : n.step c u ev = .ok (n', l, p)) : Later n.node.actor.store n'.node.actor.store := by
  have other : ∀ {n n' : ANode} {x : Event}, n.other c x = .ok n' →
      Later n.node.actor.store n'.node.actor.store := by
    intro n n' x e
    obtain ⟨a, f, e1, e2, -⟩ := other_cases e
    rw [e2]; exact .actorStep e1
  have start : ∀ {n n' : ANode} {slot : Nat}, n.start c slot = .ok n' →
      Later n.node.actor.store n'.node.actor.store := by
    intro n n' slot e
    obtain ⟨js, vals, s, e1, e2, -⟩ := start_cases e
    rw [e2]; exact .sessionJobs e1
  have early : ∀ {n n' : ANode} {now : Nat} {agg : Bool}, n.early c u now agg = .ok n' →
      Later n.node.actor.store n'.node.actor.store := by
    intro n n' now agg e
    unfold ANode.early at e
    split at e
    · cases e; exact .refl _
    split at e
    · cases e
    next st s e1 =>
    have L : Later _ s := .headState e1
    simp only at e
    split at e
    · cases e; exact L
    · exact L.trans (start e)
  have outer : ∀ {f : ANode → ANode}, (∀ m, (f m).node = m.node) → ∀ {x : Event},
      (n.other c x).map (fun n => (f n, ([] : List Signed), ([] : List Published))) = .ok (n', l, p) →
      Later n.node.actor.store n'.node.actor.store := by
    intro f hf x e
    cases e1 : n.other c x with
    | error k => rw [e1] at e; cases e
    | ok n1 => rw [e1] at e; cases e; rw [hf]; exact other e1
  cases ev with
  | timer now agg =>
    unfold ANode.step at e
    simp only at e
    split at e
    · cases e
    next m l' e1 =>
    have L := (tick_out e1).1
    split at e
    · cases e
    next n2 e2 =>
    cases e
    unfold ANode.tickSession at e2
    simp only at e2
    split at e2
    · cases e2; exact L
    split at e2
    · exact L.trans (start e2)
    · cases e2; exact L
  | block sb => exact outer (f := id) (fun _ => rfl) e
  | aggregate d a => exact outer (f := id) (fun _ => rfl) e
  | attestation v d sig now agg =>
    unfold ANode.step at e
    simp only at e
    split at e
    · cases e
    next n1 e1 =>
    split at e
    · cases e2 : n1.early c u now agg with
      | error k => rw [e2] at e; cases e
      | ok n2 => rw [e2] at e; cases e; exact (other e1).trans (early e2)
    · cases e; exact other e1
  | check now agg =>
    unfold ANode.step at e
    simp only at e
    cases e2 : n.early c u now agg with
    | error k => rw [e2] at e; cases e
    | ok n2 => rw [e2] at e; cases e; exact early e2
  | begin k => unfold ANode.step at e; cases e; exact .refl _
  | finish k now =>
    unfold ANode.step at e
    simp only at e
    split at e <;> cases e <;> exact .refl _
  | deliver k now =>
    unfold ANode.step at e
    simp only at e
    split at e
    · cases e; exact .refl _
    split at e
    · cases e; exact .refl _
    split at e
    · cases e
    next n1 l1 e1 =>
    cases e
    unfold ANode.take at e1
    split at e1
    · cases e1; exact .refl _
    split at e1
    · cases e1
    next e2 =>
      cases e1
      exact other (n := { n with mail := n.mail.eraseIdx k }) e2
  | deadline id =>
    unfold ANode.step at e
    cases e
    split
    · rw [(cancel_node n).1]; exact .refl _
    · exact .refl _
  | restart =>
    exact outer (f := fun n => { n with current := none, workers := [], mail := [] })
      (fun _ => rfl) (x := .restart) e

/-- Workers and messages keep to the publication times of their sessions. -/
structure Punctual (g : Nat) (n : ANode) : Prop where
  workers : ∀ w ∈ n.workers, w.publishAt = g + w.id * 4000 + 1600
  mail : ∀ p ∈ n.mail, g + p.id * 4000 + 1600 ≤ p.due

theorem step_punctual {g : Nat} {n n' : ANode} {ev : AEvent} {l : List Signed} {p : List Published}
    (hg : g = n.node.actor.store.genesisTime * 1000) (h : Punctual g n)
    (e : n.step c u ev = .ok (n', l, p)) :
    Punctual g n' ∧ ∀ x ∈ p, g + x.id * 4000 + 1600 ≤ x.now := by
  have other : ∀ {n n' : ANode} {x : Event}, Punctual g n → n.other c x = .ok n' → Punctual g n' := by
    intro n n' x h e
    obtain ⟨a, f, -, -, -, e1, e2⟩ := other_cases e
    exact ⟨by rw [e1]; exact h.workers, by rw [e2]; exact h.mail⟩
  have cancel : Punctual g n → Punctual g n.cancel := by
    intro h
    refine ⟨fun w hw => ?_, by rw [(cancel_node n).2.1]; exact h.mail⟩
    obtain ⟨w0, h1, -, h2, h3, -⟩ := cancel_mem hw
    rw [h2, h3]; exact h.workers w0 h1
  have start : ∀ {n n' : ANode} {slot : Nat}, g = n.node.actor.store.genesisTime * 1000 → Punctual g n →
      n.start c slot = .ok n' → Punctual g n' := by
    intro n n' slot hg h e
    obtain ⟨js, vals, s, e1, -, e3, e4⟩ := start_cases e
    have L : Later _ s := .sessionJobs e1
    have hc : ∀ w ∈ n.cancel.workers, w.publishAt = g + w.id * 4000 + 1600 := by
      intro w hw
      obtain ⟨w0, h1, -, h2, h3, -⟩ := cancel_mem hw
      rw [h2, h3]; exact h.workers w0 h1
    refine ⟨fun w hw => ?_, by rw [e3]; exact h.mail⟩
    rcases e4 with ⟨-, -, e4⟩ | ⟨-, e4⟩ <;> rw [e4] at hw
    · exact hc w hw
    · rcases List.mem_append.1 hw with hw | hw
      · exact hc w hw
      · obtain rfl := List.mem_singleton.1 hw
        show s.genesisTime * 1000 + slot * 4000 + 2 * 800 = _
        rw [L.genesis, ← hg]
  have early : ∀ {n n' : ANode} {now : Nat} {agg : Bool}, g = n.node.actor.store.genesisTime * 1000 →
      Punctual g n → n.early c u now agg = .ok n' → Punctual g n' := by
    intro n n' now agg hg h e
    unfold ANode.early at e
    split at e
    · cases e; exact h
    split at e
    · cases e
    next st s e1 =>
    have L : Later _ s := .headState e1
    simp only at e
    split at e
    · cases e; exact ⟨h.workers, h.mail⟩
    · exact start (n := { n with node := { n.node with actor := { n.node.actor with store := s } } })
        (by show g = s.genesisTime * 1000; rw [L.genesis]; exact hg) ⟨h.workers, h.mail⟩ e
  have nil : ∀ {x : Published}, x ∈ ([] : List Published) → g + x.id * 4000 + 1600 ≤ x.now :=
    fun h => nomatch h
  have outer : ∀ {f : ANode → ANode}, (∀ m, Punctual g m → Punctual g (f m)) → ∀ {x : Event},
      (n.other c x).map (fun n => (f n, ([] : List Signed), ([] : List Published))) = .ok (n', l, p) →
      Punctual g n' ∧ ∀ x ∈ p, g + x.id * 4000 + 1600 ≤ x.now := by
    intro f hf x e
    cases e1 : n.other c x with
    | error k => rw [e1] at e; cases e
    | ok n1 => rw [e1] at e; cases e; exact ⟨hf _ (other h e1), fun x hx => nil hx⟩
  cases ev with
  | timer now agg =>
    unfold ANode.step at e
    simp only at e
    split at e
    · cases e
    next m l' e1 =>
    have L := (tick_out e1).1
    split at e
    · cases e
    next n2 e2 =>
    cases e
    unfold ANode.tickSession at e2
    simp only at e2
    refine ⟨?_, fun x hx => nil hx⟩
    split at e2
    · cases e2; exact ⟨h.workers, h.mail⟩
    split at e2
    · exact start (n := { n with node := m })
        (by show g = m.actor.store.genesisTime * 1000; rw [L.genesis]; exact hg)
        ⟨h.workers, h.mail⟩ e2
    · cases e2; exact ⟨h.workers, h.mail⟩
  | block sb => exact outer (f := id) (fun _ h => h) e
  | aggregate d a => exact outer (f := id) (fun _ h => h) e
  | attestation v d sig now agg =>
    unfold ANode.step at e
    simp only at e
    split at e
    · cases e
    next n1 e1 =>
    obtain ⟨a, f, k1, k2, -⟩ := other_cases e1
    have L : Later n.node.actor.store n1.node.actor.store := by rw [k2]; exact .actorStep k1
    split at e
    · cases e2 : n1.early c u now agg with
      | error k => rw [e2] at e; cases e
      | ok n2 =>
        rw [e2] at e; cases e
        exact ⟨early (by rw [L.genesis]; exact hg) (other h e1) e2, fun x hx => nil hx⟩
    · cases e; exact ⟨other h e1, fun x hx => nil hx⟩
  | check now agg =>
    unfold ANode.step at e
    simp only at e
    cases e2 : n.early c u now agg with
    | error k => rw [e2] at e; cases e
    | ok n2 => rw [e2] at e; cases e; exact ⟨early hg h e2, fun x hx => nil hx⟩
  | begin k =>
    unfold ANode.step at e
    cases e
    refine ⟨⟨fun w hw => ?_, h.mail⟩, fun x hx => nil hx⟩
    rcases mem_modify hw with hw | ⟨y, h1, -, rfl⟩
    · exact h.workers w hw
    · rw [(next_cases y).2.1, (next_cases y).2.2.1]; exact h.workers y h1
  | finish k now =>
    unfold ANode.step at e
    simp only at e
    split at e
    · cases e; exact ⟨h, fun x hx => nil hx⟩
    next w hw =>
    have hw := h.workers w (List.mem_of_getElem? hw)
    obtain ⟨-, d2, d3, d5⟩ := done_cases c.X w now
    cases e
    refine ⟨⟨fun x hx => ?_, fun x hx => ?_⟩, fun x hx => nil hx⟩
    · rcases mem_set_cases hx with hx | rfl
      · exact h.workers x hx
      · rw [d2, d3]; exact hw
    · rcases List.mem_append.1 hx with hx | hx
      · exact h.mail x hx
      · rcases d5 with ⟨d5, -⟩ | ⟨j, o, -, -, d5⟩ <;> rw [d5] at hx
        · cases hx
        · obtain rfl := List.mem_singleton.1 hx
          show g + w.id * 4000 + 1600 ≤ max now w.publishAt
          omega
  | deliver k now =>
    unfold ANode.step at e
    simp only at e
    split at e
    · cases e; exact ⟨h, fun x hx => nil hx⟩
    next q hq =>
    split at e
    · cases e; exact ⟨h, fun x hx => nil hx⟩
    next hdue =>
    have hq := h.mail q (List.mem_of_getElem? hq)
    split at e
    · cases e
    next n1 l1 e1 =>
    cases e
    have K : Punctual g { n with mail := n.mail.eraseIdx k } :=
      ⟨h.workers, fun x hx => h.mail x (List.mem_of_mem_eraseIdx hx)⟩
    unfold ANode.take at e1
    split at e1
    · cases e1; exact ⟨K, fun x hx => nil hx⟩
    split at e1
    · cases e1
    next e2 =>
      cases e1
      refine ⟨other K e2, fun x hx => ?_⟩
      obtain rfl := List.mem_singleton.1 hx
      show g + q.id * 4000 + 1600 ≤ now
      omega
  | deadline id =>
    unfold ANode.step at e
    cases e
    refine ⟨?_, fun x hx => nil hx⟩
    split
    · exact cancel h
    · exact h
  | restart =>
    exact outer (f := fun n => { n with current := none, workers := [], mail := [] })
      (fun _ _ => ⟨fun w hw => (nomatch hw), fun w hw => (nomatch hw)⟩) (x := .restart) e

end

section
variable {c : VCtx} {u : Subnets} {a0 : State} {body : Option (List AggAtt)} {t : Nat}
  {vals : List Validator} {bs : List Block} {n m : ANode} {aevs : List AEvent} {out : List Signed}
  {pub : List Published}

theorem published_job {evs : List Event} {P : AttData → Agg → Prop}
    (own : OwnMade c.X c.ctx (proveJob c.X) a0 body evs)
    (hp : ∀ vals' jobs j o, MadeJobs c a0 body evs vals' jobs → j ∈ jobs →
      aggregateJob (proveJob c.X vals') j = .ok (some o) → P o.data o.proof)
    {d : AttData} {g : Agg} {keys : List (Nat × Root)} (h : Event.ownAggregate d g keys ∈ evs) :
    P d g := by
  obtain ⟨pre, suf, rfl⟩ := List.append_of_mem h
  obtain ⟨evs0, a1, st, known, slot, k, jobs, j, o, k1, k2, k3, k4, k5, k6, rfl, rfl⟩ :=
    own d g keys suf (List.suffix_append _ _)
  exact hp _ jobs j o ⟨evs0, a1, st, known, slot, k,
    k1.trans ((List.suffix_cons _ _).trans (List.suffix_append _ _)), k2, k3, k4, rfl⟩ k5 k6

theorem NoCollision.suffix {H : Hash} {evs evs' : List Event} (hs : evs' <:+ evs)
    (h : NoCollision H evs) : NoCollision H evs' := by
  have ha : ∀ sb, Arrived evs' sb → Arrived evs sb :=
    fun sb h => h.imp (fun h => hs.subset h) (fun h => hs.subset h)
  have hd : ∀ d, Occurs evs' d → Occurs evs d := by
    rintro d (⟨sb, h, x⟩ | ⟨v, sig, agg, h⟩ | ⟨g, h⟩)
    · exact .inl ⟨sb, ha sb h, x⟩
    · exact .inr (.inl ⟨v, sig, agg, hs.subset h⟩)
    · exact .inr (.inr ⟨g, hs.subset h⟩)
  have hb : ∀ l, BodyIn evs' l → BodyIn evs l := by
    rintro l (h | ⟨sb, h, x⟩)
    · exact .inl h
    · exact .inr ⟨sb, ha sb h, x⟩
  exact ⟨fun d d' h1 h2 => h.votes d d' (hd d h1) (hd d' h2),
    fun l l' h1 h2 => h.bodies l l' (hb l h1) (hb l' h2)⟩

theorem OneCopy.suffix {evs evs' : List Event} (hs : evs' <:+ evs) (h : OneCopy evs) :
    OneCopy evs' := by
  have ha : ∀ sb, Arrived evs' sb → Arrived evs sb :=
    fun sb h => h.imp (fun h => hs.subset h) (fun h => hs.subset h)
  exact fun sb sb' h1 h2 => h sb sb' (ha sb h1) (ha sb' h2)

/-- What the sessions of a run look like at its end, `T` being the last clock reading. -/
structure SessionsOk (g T : Nat) (n : ANode) (pub : List Published) : Prop where
  past : ∀ i, AboutId n pub i → i < (T - g) / 4000 ∨ n.current.map Prod.fst = some i
  cur : ∀ i, n.current.map Prod.fst = some i → i ≤ (T - g) / 4000
  last : ∀ i k, AboutId n pub i → n.current.map Prod.fst = some k → i ≤ k
  order : (pub.map Published.id).Pairwise (· ≤ ·)

theorem SessionsOk.amount {g T : Nat} {n' : ANode} {ev : AEvent} {p : List Published} {T' : Nat}
    (h : SessionsOk g T n pub) (hT : T ≤ T') (ht : ∀ now, ev.time = some now → T' = now)
    (hc : Change g n pub ev n' p) :
    SessionsOk g T' n' (pub ++ p) ∧ ∀ q i,
      amount q i n' (pub ++ p) ≤ amount q i n pub ∨
      ∃ w ∈ n'.workers, w.open.length ≤ maxAggregationJobs ∧
        amount q i n' (pub ++ p) ≤ w.open.countP (fun j => q j.data) := by
  have hs : (T - g) / 4000 ≤ (T' - g) / 4000 := Nat.div_le_div_right (by omega)
  cases hc with
  | stay hc about amt cur =>
    refine ⟨⟨fun i hi => ?_, fun i hi => ?_, fun i k hi hk => ?_, ?_⟩, fun q i => .inl (amt q i)⟩
    · rw [hc]
      rcases h.past i (about i hi) with h | h
      · exact .inl (by omega)
      · exact .inr h
    · rw [hc] at hi
      exact Nat.le_trans (h.cur i hi) hs
    · rw [hc] at hk
      exact h.last i k (about i hi) hk
    · rw [List.map_append]
      refine List.pairwise_append.2 ⟨h.order, ?_, fun x hx y hy => ?_⟩
      · refine List.Pairwise.imp_of_mem (R := fun _ _ => True) (fun {a b} ha hb _ => ?_)
          (List.pairwise_of_forall (fun _ _ => trivial))
        obtain ⟨x, hx, rfl⟩ := List.mem_map.1 ha
        obtain ⟨y, hy, rfl⟩ := List.mem_map.1 hb
        have := (cur x hx).symm.trans (cur y hy)
        exact Nat.le_of_eq (Option.some.inj this)
      · obtain ⟨x, hx', rfl⟩ := List.mem_map.1 hx
        obtain ⟨y, hy', rfl⟩ := List.mem_map.1 hy
        exact h.last _ _ (.inr (.inr ⟨x, hx', rfl⟩)) (cur y hy')
  | fail now ht' hn hp hc about amt =>
    subst hp
    rw [List.append_nil]
    have := ht now ht'
    subst this
    refine ⟨⟨fun i hi => ?_, fun i hi => ?_, fun i k hi hk => ?_, h.order⟩, fun q i => .inl (amt q i)⟩
    · rcases h.past i (about i hi) with h' | h'
      · exact .inl (by omega)
      · have h1 := h.cur i h'
        have : i ≠ (T' - g) / 4000 := fun e => hn (e ▸ h')
        exact .inl (by omega)
    · rw [hc] at hi; cases hi
    · rw [hc] at hk; cases hk
  | begun now w ht' hn hp hc about hw len amt =>
    subst hp
    rw [List.append_nil]
    have := ht now ht'
    subst this
    have old : ∀ i, AboutId n pub i → i < (T' - g) / 4000 := by
      intro i hi
      rcases h.past i hi with h' | h'
      · omega
      · have h1 := h.cur i h'
        have : i ≠ (T' - g) / 4000 := fun e => hn (e ▸ h')
        omega
    refine ⟨⟨fun i hi => ?_, fun i hi => ?_, fun i k hi hk => ?_, h.order⟩, fun q i => ?_⟩
    · rcases about i hi with hi | rfl
      · exact .inl (old i hi)
      · exact .inr hc
    · rw [hc] at hi; cases hi; exact Nat.le_refl _
    · rw [hc] at hk
      cases hk
      rcases about i hi with hi | rfl
      · exact Nat.le_of_lt (old i hi)
      · exact Nat.le_refl _
    · have h1 := amt q i
      by_cases hi : i = (T' - g) / 4000
      · rw [if_pos hi] at h1
        have : ¬ AboutId n pub i := fun h => by have := old i h; omega
        rw [amount_none this] at h1
        exact .inr ⟨w, hw, len, by omega⟩
      · rw [if_neg hi] at h1
        exact .inl h1

/-- The last clock reading of a run. -/
def lastTime (aevs : List AEvent) : Nat := (aevs.filterMap AEvent.time).headD 0

theorem ANRun.sessions (h0 : n.Fresh c a0 body) (h : ANRun c u n aevs m out pub)
    (hr : .restart ∉ aevs) (hc : ClockForward aevs) :
    SessionsOk (n.node.actor.store.genesisTime * 1000) (lastTime aevs) m pub ∧
    m.node.actor.store.genesisTime = n.node.actor.store.genesisTime ∧
    ∀ q b, (∀ aevs' m' out' pub' evs', ANRun c u n aevs' m' out' pub' → aevs' <:+ aevs → out' ⊆ out →
      AKept c a0 body evs' m' → (∀ x ∈ evs', Accounted aevs' out' pub' x) →
      ∀ w ∈ m'.workers, w.open.length ≤ maxAggregationJobs → w.open.countP (fun j => q j.data) ≤ b) →
      ∀ i, amount q i m pub ≤ b := by
  induction h with
  | nil =>
    have na : ∀ i, ¬ AboutId n [] i := by
      rintro i (⟨w, hw, -⟩ | ⟨w, hw, -⟩ | ⟨w, hw, -⟩)
      · rw [h0.workers] at hw; cases hw
      · rw [h0.mail] at hw; cases hw
      · cases hw
    refine ⟨⟨fun i hi => absurd hi (na i), fun i hi => ?_, fun i k hi => absurd hi (na i), .nil⟩, rfl,
      fun q b _ i => ?_⟩
    · rw [h0.current] at hi; cases hi
    · rw [amount_none (na i)]; exact Nat.zero_le _
  | @step aevs m out pub ev m' l p hrun e ih =>
    have hsub : (aevs.filterMap AEvent.time).Pairwise (· ≥ ·) := by
      unfold ClockForward at hc
      rw [List.filterMap_cons] at hc
      split at hc
      · exact hc
      · exact (List.pairwise_cons.1 hc).2
    obtain ⟨i1, i2, i3⟩ := ih (fun h => hr (List.mem_cons_of_mem _ h)) hsub
    have hT : lastTime aevs ≤ lastTime (ev :: aevs) ∧
        ∀ now, ev.time = some now → lastTime (ev :: aevs) = now := by
      unfold ClockForward at hc
      unfold lastTime
      rw [List.filterMap_cons] at hc ⊢
      cases ht : ev.time with
      | none => simp
      | some now =>
        rw [ht] at hc
        simp only at hc ⊢
        refine ⟨?_, fun x hx => by cases hx; rfl⟩
        cases hl : aevs.filterMap AEvent.time with
        | nil => exact Nat.zero_le _
        | cons a l =>
          rw [hl] at hc
          exact (List.pairwise_cons.1 hc).1 a List.mem_cons_self
    have ch := step_change (pub := pub) (by rw [i2]) (fun e => hr (by rw [e]; exact List.mem_cons_self)) e
    obtain ⟨j1, j2⟩ := i1.amount hT.1 hT.2 ch
    refine ⟨j1, (step_genesis e).genesis.trans i2, fun q b hb i => ?_⟩
    rcases j2 q i with j2 | ⟨w, hw, len, j2⟩
    · refine Nat.le_trans j2 (i3 q b (fun aevs' m' out' pub' evs' r s o => ?_) i)
      exact hb aevs' m' out' pub' evs' r (s.trans (List.suffix_cons _ _))
        (fun x hx => List.subset_append_left _ _ (o hx))
    · obtain ⟨evs, K, k1, -⟩ := (ANRun.step hrun e).kept h0
      exact Nat.le_trans j2 (hb _ _ _ _ evs (.step hrun e) (List.suffix_refl _) (fun _ h => h) K k1 w hw len)

end

end Verif.Node
