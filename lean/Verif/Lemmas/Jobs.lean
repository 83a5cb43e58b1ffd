import Verif.Lemmas.Held
import Verif.Lemmas.Aggregation
import Verif.Spec.Pools
import Verif.Props.C46_Aggregation
import Verif.Props.C81_Reaggregate
/-!
# What the jobs of a node are made of
-/
namespace Verif.Node
open Verif Verif.Db Verif.Votes Verif.Buffers Verif.Build

theorem jobRounds_mem {hist known : List Root} {n slot : Nat} : ∀ {k : Nat} {pool : AMap Root Job}
    {p : Projected} {js : List Job}, pool.keys.Nodup →
    jobRounds hist known n slot k pool p = some js → ∀ j ∈ js, ∃ r, pool.get? r = some j
  | 0, _, _, _, _, h, j, hj => by cases h; cases hj
  | k + 1, pool, p, js, hn, h, j, hj => by
    unfold jobRounds at h
    cases hp : pickJob hist known n slot p pool with
    | none => rw [hp] at h; cases h; cases hj
    | some x =>
      obtain ⟨r, j1, sc⟩ := x
      rw [hp] at h
      simp only at h
      obtain ⟨p', -, h⟩ := Option.bind_eq_some_iff.1 h
      obtain ⟨js1, h1, rfl⟩ := Option.map_eq_some_iff.1 h
      rcases List.mem_cons.1 hj with rfl | hj
      · exact ⟨r, AMap.get?_of_mem hn (pickJob_mem hp).1⟩
      · obtain ⟨r', h'⟩ := jobRounds_mem (AMap.nodup_erase hn r) h1 j hj
        rw [AMap.get?_erase] at h'
        split at h'
        · cases h'
        · exact ⟨r', h'⟩

theorem Held.pool {H : Hash} {D : AttData → Prop} {P : AttData → Agg → Prop}
    {G : Nat → AttData → Nat → Prop} {V : Nat → AttData → Prop} {s : Store} (h : Held H D P G V s)
    {r : Root} {g : Agg} (hg : g ∈ proofsFor s.newP r ++ proofsFor s.knownP r) :
    ∃ d, H.attData d = r ∧ D d ∧ P d g := by
  rcases List.mem_append.1 hg with hg | hg <;> obtain ⟨e, h1, h2⟩ := mem_proofsFor.1 hg
  · obtain ⟨k1, k2, k3⟩ := h.newP _ (AMap.mem_of_get? h1)
    exact ⟨e.data, k1, k2, k3 g h2⟩
  · obtain ⟨k1, k2, k3⟩ := h.knownP _ (AMap.mem_of_get? h1)
    exact ⟨e.data, k1, k2, k3 g h2⟩

/-- Every input of a job is as asked of the pools. -/
theorem job_material {H : Hash} {D : AttData → Prop} {P : AttData → Agg → Prop}
    {G : Nat → AttData → Nat → Prop} {V : Nat → AttData → Prop} {s : Store}
    (hD : ∀ d d', D d → D d' → H.attData d = H.attData d' → d = d')
    (h : Held H D P G V s) (hb : BInv H s) {decodes : Nat → Bool} {st : State} {hd : Root}
    {known : List Root} {slot n : Nat} {jobs : List Job} {j : Job}
    (hs : snapshotJobs H decodes st hd known ⟨s.gossip, s.newP, s.knownP⟩ slot n = some jobs)
    (hj : j ∈ jobs) :
    D j.data ∧ j.root = H.attData j.data ∧ (j.raw.map Prod.fst).Nodup ∧
    (∀ v ∈ j.raw.map Prod.fst, v ∉ j.childIds) ∧ (∀ x ∈ j.raw, G x.1 j.data x.2) ∧
    ∃ qs : List Agg, (∀ q ∈ qs, P j.data q) ∧ j.children = qs.map (fun q => (Agg.ids q, q.proof)) ∧
      j.childIds = qs.flatMap Agg.ids := by
  obtain ⟨c1, c2⟩ := candidates_spec (H := H) (decodes := decodes) (vals := st.validators)
    (p := ⟨s.gossip, s.newP, s.knownP⟩) hb.gossip hb.new.inv
  obtain ⟨r, hr⟩ := jobRounds_mem c1 hs j hj
  have fin : ∀ (d : AttData) (sigs : List (Nat × Nat)), D d → H.attData d = r →
      (∀ x ∈ sigs, G x.1 d x.2) →
      JobSpec decodes st.validators d r sigs (proofsFor s.newP r) (proofsFor s.knownP r) j →
      D j.data ∧ j.root = H.attData j.data ∧ (j.raw.map Prod.fst).Nodup ∧
      (∀ v ∈ j.raw.map Prod.fst, v ∉ j.childIds) ∧ (∀ x ∈ j.raw, G x.1 j.data x.2) ∧
      ∃ qs : List Agg, (∀ q ∈ qs, P j.data q) ∧
        j.children = qs.map (fun q => (Agg.ids q, q.proof)) ∧ j.childIds = qs.flatMap Agg.ids := by
    intro d sigs hd hdr hsig S
    obtain ⟨qs, -, q2, q3, q4, -⟩ := S.children
    refine ⟨by rw [S.data]; exact hd, by rw [S.root_eq, S.data, hdr], S.nodup, S.disjoint, ?_,
      qs, ?_, q3, q4⟩
    · intro x hx
      rw [S.data]
      exact hsig x (S.raw x hx).1
    · intro q hq
      obtain ⟨d', k1, k2, k3⟩ := h.pool (q2 q hq)
      rw [S.data, hD d d' hd k2 (hdr.trans k1.symm)]
      exact k3
  rcases c2 r j hr with ⟨e, he, hres⟩ | ⟨e, he, hres⟩
  · obtain ⟨k1, k2, k3⟩ := h.gossip _ (AMap.mem_of_get? he)
    exact fin e.data e.sigs k2 k1 k3 (resolveJob_spec hres)
  · obtain ⟨k1, k2, -⟩ := h.newP _ (AMap.mem_of_get? he)
    exact fin e.data [] k2 k1 (by simp) (resolveJob_spec hres)

/-- A job whose inputs are as asked. -/
structure JobOk (H : Hash) (D : AttData → Prop) (P : AttData → Agg → Prop)
    (G : Nat → AttData → Nat → Prop) (j : Job) : Prop where
  data : D j.data
  root : j.root = H.attData j.data
  nodup : (j.raw.map Prod.fst).Nodup
  disjoint : ∀ v ∈ j.raw.map Prod.fst, v ∉ j.childIds
  raw : ∀ x ∈ j.raw, G x.1 j.data x.2
  children : ∃ qs : List Agg, (∀ q ∈ qs, P j.data q) ∧
    j.children = qs.map (fun q => (Agg.ids q, q.proof)) ∧ j.childIds = qs.flatMap Agg.ids

/-- What is asked of the pools holds after every execution, if it follows from the node's checks and
carries over from the inputs of a job to its output. -/
theorem areach_held {X : Crypto} {c : Ctx} {t : Nat} {vals : List Validator} {bs : List Block}
    {a0 : State} {body : Option (List AggAtt)} {evs : List Event} {a : Actor}
    {P : AttData → Agg → Prop} {G : Nat → AttData → Nat → Prop} {V : Nat → AttData → Prop}
    {prove : List Validator → Job → Option Nat} (ho : ∀ l, (c.order l).Perm l)
    (W : World c.E t vals bs a0 (Known c.E.H (State.fromGenesis c.E.H t vals) bs evs))
    (L : Laws c vals (Arrived evs) (Occurs evs) P G V)
    (own : ∀ j out, JobOk c.E.H (Occurs evs) P G j → aggregateJob (prove vals) j = .ok (some out) →
      P j.data out.proof)
    (hown : OwnMade X c prove a0 body evs) (h : AReach c a0 body evs a) :
    Held c.E.H (Occurs evs) P G V a.store ∧ ∃ root anchor ops,
      AnchorOk c.E.H (State.fromGenesis c.E.H t vals)
        (Known c.E.H (State.fromGenesis c.E.H t vals) bs evs) root anchor ∧
      NInv c.E t vals a0 body (Known c.E.H (State.fromGenesis c.E.H t vals) bs evs) root anchor NoX
        ops a.store := by
  obtain ⟨rank, hR⟩ := W.acyclic
  obtain ⟨root, anchor, ops, A, I, K⟩ := areach_keeps ho W hR L evs.length (Nat.le_refl _) h
    eventK_known (fun ev evs1 hsuf ih => by
      have hmem : ev ∈ evs := hsuf.subset List.mem_cons_self
      cases ev with
      | block sb => exact .inl hmem
      | own sb => exact .inr hmem
      | attestation v d sig agg => exact .inr (.inl ⟨v, sig, agg, hmem⟩)
      | aggregate d g => exact .inr (.inr ⟨g, hmem⟩)
      | ownAggregate d g keys =>
        obtain ⟨evs0, a1, st, known, slot, n, jobs, j, out, h0, h1, ⟨m, h2⟩, h3, h4, h5, h6, h7⟩ :=
          hown d g keys evs1 hsuf
        obtain ⟨⟨root, anchor, ops, I⟩, hh⟩ := ih evs0 a1 h0 h1
        have hv : st.validators = vals := by
          exact state_vals W I.node ((I.node.reads W _ _).1 ⟨m, h2⟩)
        obtain ⟨k1, k2, k3, k4, k5, k6⟩ := job_material L.inj hh I.node.buf h3 h4
        rw [hv] at h5
        have e1 := (C46_published _ _ _ h5).1
        have e2 : j.data = d := e1.symm.trans h6
        have := own j out ⟨k1, k2, k3, k4, k5, k6⟩ h5
        rw [h7, e2] at this
        exact ⟨e2 ▸ k1, this⟩
      | _ => trivial)
  exact ⟨K.held, root, anchor, ops, A, I.node⟩

end Verif.Node
