import Verif.Lemmas.Delivery
/-!
# Where blocks that are stored but not imported come from

Such a block was received from the network while its parent was not imported.
-/
namespace Verif.Node
open Verif Verif.Db

theorem onBlock_headers {E : Env} {s s' : Store} {sb : SignedBlock} {r : Except Err Unit}
    (e : Node.onBlock E s sb = .ok (s', r)) (k : Root) (hk : k ≠ sb.block.root E.H) :
    s'.mem.db.headers.get? k = s.mem.db.headers.get? k := by
  unfold Node.onBlock at e
  split at e
  · cases e; rfl
  · split at e
    · cases e
    next s1 h1 => cases e; rw [(getState_frame h1).1]
    next p s1 h1 =>
      have hd := (getState_frame h1).1
      split at e
      · cases e; rw [hd]
      next st hst =>
        split at e
        · cases e
        next s2 h2 =>
          cases e
          rw [← hd]
          unfold commitBlock at h2
          split at h2
          · cases h2
          next s3 h3 =>
            have hj : s3.mem.db.headers = s1.mem.db.headers := by
              unfold raiseJustified at h3
              split at h3
              · exact (updateCheckpoints_frame (setCheckpoints_split h3).1).1
              · cases h3; rfl
            simp only at h2
            split at h2
            · cases h2
            next s4 h4 =>
              obtain ⟨b3, -⟩ := updateHead_blocks h2
              unfold putState at h4
              split at h4
              · cases h4
              next m hm =>
                cases h4
                obtain ⟨i1, -⟩ := insertState_db hm
                rw [b3.headers]
                show m.db.headers.get? k = _
                rw [i1]
                show (s3.mem.db.headers.insert _ _).get? k = _
                rw [AMap.get?_insert, if_neg (fun h => hk h.symm), hj]

section
variable {c : Ctx} {t : Nat} {vals : List Validator} {bs : List Block} {a0 : State}
  {body : Option (List AggAtt)} {K : Header → Prop} {rank : Root → Nat} {root : Root}
  {anchor : State} {ops : List Db.Op} {a a' : Actor}

theorem process_headers {sb : SignedBlock} {o : Out} (e : a.process c sb = .ok o) (k : Root)
    (hk : k ≠ sb.block.root c.E.H) :
    o.actor.store.mem.db.headers.get? k = a.store.mem.db.headers.get? k := by
  have hd : ∀ {a1 : Actor} {r : Root}, a.discard c r = .ok a1 → a1.store = a.store := by
    intro a1 r h
    unfold Actor.discard at h
    split at h
    · cases h
    · cases h; rfl
  unfold Actor.process at e
  simp only at e
  split at e
  · split at e
    · cases e
    next h1 => cases e; rw [hd h1]
  split at e
  · split at e
    · cases e
    next h1 => cases e; rw [hd h1]
  split at e
  next hs =>
    have hw : (insertPendingBlock c.E.H a.store.mem.db (sb.block.root c.E.H) sb).headers.get? k =
        a.store.mem.db.headers.get? k := by
      show (a.store.mem.db.headers.insert _ _).get? k = _
      rw [AMap.get?_insert, if_neg (fun h => hk h.symm)]
    unfold Actor.pend at e
    simp only at e
    split at e
    · cases e
    split at e
    · cases e
    next h => cases e; exact hw
    next h =>
      split at e
      · cases e
      · cases e; exact hw
  · split at e
    · cases e
    next s x h => cases e; exact onBlock_headers h k hk
    next s h =>
      split at e
      · cases e
      next s2 h2 =>
        cases e
        have hm : s2.mem = s.mem := foldAggs_mem h2
        have hst := onBlock_headers h k hk
        rw [← hst]
        unfold Actor.collect
        simp only
        split <;> (show s2.mem.db.headers.get? k = _; rw [hm])

/-- Every stored block is imported, or was stored before, or satisfies `S`; and so do the blocks of
the queue that would be stored without being imported. -/
def StoredBy (hs : AMap Root Header) (S : Root → Prop) (c : Ctx) (a : Actor) (q : List SignedBlock) :
    Prop :=
  (∀ r hd, a.store.mem.db.headers.get? r = some hd →
    hasState a.store.mem.db r = true ∨ hs.get? r ≠ none ∨ S r) ∧
  ∀ x ∈ q, hasState a.store.mem.db x.block.parentRoot = false → S (x.block.root c.E.H)

theorem storedBy_kept (ho : ∀ l, (c.order l).Perm l) (W : World c.E t vals bs a0 K)
    {hs : AMap Root Header} {S : Root → Prop} :
    Kept c t vals a0 body K rank root anchor (fun _ a q => StoredBy hs S c a q) := by
  intro ops a sb q ops' o I I' hk x hready hrq hproc p hJ
  have grow : ∀ r, hasState a.store.mem.db r = true → hasState o.actor.store.mem.db r = true :=
    fun r h => x.hasState W I.node I'.node h
  refine ⟨fun r hd hg => ?_, fun y hy hn => ?_⟩
  · by_cases hr : r = sb.block.root c.E.H
    · subst hr
      cases p with
      | reject _ _ hst =>
        rw [hst] at hg ⊢
        exact hJ.1 _ _ hg
      | pend _ hno => exact .inr (.inr (hJ.2 sb List.mem_cons_self hno))
      | fail _ himp hact =>
        rw [hact] at hg ⊢
        have hg : _ = some hd := hg
        rw [himp.err _ rfl] at hg
        show hasState _ _ = true ∨ _
        rw [himp.err _ rfl]
        exact hJ.1 _ _ hg
      | done _ himp hmem =>
        obtain ⟨st, hst⟩ := himp.ok rfl
        exact .inl ((I'.node.hasState_iff W _).2 ⟨st, hst⟩)
    · rw [process_headers hproc r hr] at hg
      exact (hJ.1 r hd hg).imp (grow r) id
  · exfalso
    obtain ⟨-, q2, -⟩ := p.queue ho W I I' x
    rcases List.mem_append.1 hy with hy | hy
    · rw [grow _ (hrq y hy)] at hn; cases hn
    · rw [q2 y hy] at hn; cases hn

/-- One event. -/
theorem stored_step (ho : ∀ l, (c.order l).Perm l) (W : World c.E t vals bs a0 K)
    (A : AnchorOk c.E.H (State.fromGenesis c.E.H t vals) K root anchor)
    (hR : Ranks c.E.H K rank) (I : AInv c.E t vals a0 body K rank root anchor ops a)
    {ev : Event} (hk : EventK c.E.H K ev) {f : List Root} (he : a.step c ev = .ok (a', f))
    {r : Root} {hd : Header} (hg : a'.store.mem.db.headers.get? r = some hd) :
    hasState a'.store.mem.db r = true ∨ a.store.mem.db.headers.get? r ≠ none ∨
      ∃ sb, ev = .block sb ∧ sb.block.root c.E.H = r ∧
        hasState a.store.mem.db sb.block.parentRoot = false := by
  by_cases hb : ∃ sb, ev = .block sb
  · obtain ⟨sb, rfl⟩ := hb
    rcases I.onBlock ho W A hR (storedBy_kept (hs := a.store.mem.db.headers)
        (S := fun r => sb.block.root c.E.H = r ∧
          hasState a.store.mem.db sb.block.parentRoot = false) ho W) sb hk
        ⟨fun r hd h => .inr (.inl (by rw [h]; simp)), fun x hx hn => by
          rw [List.mem_singleton] at hx; subst hx; exact ⟨rfl, hn⟩⟩ with
      ⟨h1, -⟩ | ⟨a1, a2, f', ops1, ops', db, e1, I1, J1, e2, e3, I2, x1, x2⟩
    · have he : a.onBlock c sb = .ok (a', f) := he
      rw [h1] at he; cases he
    · have he : a.onBlock c sb = .ok (a', f) := he
      rw [e1] at he
      obtain ⟨rfl, rfl⟩ := Prod.mk.inj (Except.ok.inj he)
      have hh : a2.store.mem.db.headers = a1.store.mem.db.headers := by
        rw [e3]; exact (pruneOldData_frame e2).1
      rw [hh] at hg
      rcases J1.1 r hd hg with h | h | ⟨h1, h2⟩
      · exact .inl (x2.hasState W I1.node I2.node h)
      · exact .inr (.inl h)
      · exact .inr (.inr ⟨sb, rfl, h1, h2⟩)
  · have hb' : ∀ sb, ev ≠ .block sb := fun sb h => hb ⟨sb, h⟩
    obtain ⟨a2, f2, ops', e, I', x⟩ := I.other W A ev hb' hk
    rw [e] at he
    obtain ⟨rfl, rfl⟩ := Prod.mk.inj (Except.ok.inj he)
    by_cases hown : ∃ sb, ev = .own sb
    · obtain ⟨sb, rfl⟩ := hown
      obtain ⟨s', opsi, rr, q1, q2, Ii, q⟩ := I.own W A sb hk
      rw [q2] at e
      obtain ⟨e, -⟩ := Prod.mk.inj (Except.ok.inj e)
      subst e
      by_cases hr : r = sb.block.root c.E.H
      · subst hr
        cases rr with
        | error z =>
          refine .inr (.inl ?_)
          have hg : s'.mem.db.headers.get? _ = some hd := hg
          rw [q.err _ rfl] at hg
          rw [hg]; simp
        | ok z =>
          obtain ⟨st, hst⟩ := q.ok rfl
          exact .inl ((Ii.node.hasState_iff W _).2 ⟨st, hst⟩)
      · have hg : s'.mem.db.headers.get? r = some hd := hg
        rw [onBlock_headers q1 r hr] at hg
        exact .inr (.inl (by rw [hg]; simp))
    · have hp : ev.Plain := fun sb => ⟨hb' sb, fun h => hown ⟨sb, h⟩⟩
      by_cases hre : ev = .restart
      · subst hre
        unfold Actor.step at e
        simp only at e
        split at e
        · cases e
        next s1 h1 =>
          cases e
          have := (step_still hp h1).1.headers
          have hg : s1.mem.db.headers.get? r = some hd := hg
          rw [this] at hg
          exact .inr (.inl (by rw [hg]; simp))
      · obtain ⟨s1, -⟩ := Actor.step_other hb' hre e
        rw [(step_still hp s1).1.headers] at hg
        exact .inr (.inl (by rw [hg]; simp))

/-- A run keeps the invariant and what is imported. -/
theorem arun_ext (ho : ∀ l, (c.order l).Perm l) (W : World c.E t vals bs a0 K)
    (A : AnchorOk c.E.H (State.fromGenesis c.E.H t vals) K root anchor)
    (hR : Ranks c.E.H K rank) (I : AInv c.E t vals a0 body K rank root anchor ops a)
    {evs : List Event} (h : ARun c a evs a') (hk : ∀ ev ∈ evs, EventK c.E.H K ev) :
    ∃ ops', AInv c.E t vals a0 body K rank root anchor ops' a' ∧
      Ext root anchor ops a.store ops' a'.store := by
  induction h with
  | nil => exact ⟨ops, I, .refl⟩
  | @step evs b ev b' f h1 hs ih =>
    obtain ⟨ops1, I1, x1⟩ := ih (fun e he => hk e (List.mem_cons_of_mem _ he))
    rcases I1.step ho W A hR ev (hk ev List.mem_cons_self) with ⟨e, -⟩ | ⟨b2, f2, ops2, e, I2, x2⟩
    · rw [e] at hs; cases hs
    · rw [e] at hs
      obtain ⟨rfl, rfl⟩ := Prod.mk.inj (Except.ok.inj hs)
      exact ⟨ops2, I2, x1.trans x2⟩

theorem ARun.split {evs1 : List Event} {ev : Event} : ∀ {evs2 : List Event} {a' : Actor},
    ARun c a (evs2 ++ ev :: evs1) a' → ∃ b b' f, ARun c a evs1 b ∧ b.step c ev = .ok (b', f) ∧
      ARun c b' evs2 a'
  | [], a', h => by
    cases h with
    | step h1 hs => exact ⟨_, _, _, h1, hs, .nil⟩
  | e :: evs2, a', h => by
    cases h with
    | step h1 hs =>
      obtain ⟨b, b', f, k1, k2, k3⟩ := ARun.split h1
      exact ⟨b, b', f, k1, k2, k3.step hs⟩

theorem ARun.det {evs : List Event} {a1 : Actor} (h1 : ARun c a evs a1) : ∀ {a2 : Actor},
    ARun c a evs a2 → a1 = a2 := by
  induction h1 with
  | nil => intro a2 h2; cases h2; rfl
  | step _ hs ih =>
    intro a2 h2
    cases h2 with
    | step k1 k2 =>
      rw [ih k1, k2] at hs
      exact (Prod.mk.inj (Except.ok.inj hs)).1.symm

/-- A block that is stored but not imported at the end of a run, and was not stored at the beginning,
arrived during the run, while its parent was not imported. -/
theorem stored_run (ho : ∀ l, (c.order l).Perm l) (W : World c.E t vals bs a0 K)
    (A : AnchorOk c.E.H (State.fromGenesis c.E.H t vals) K root anchor)
    (hR : Ranks c.E.H K rank) (I : AInv c.E t vals a0 body K rank root anchor ops a)
    {evs : List Event} (h : ARun c a evs a') (hk : ∀ ev ∈ evs, EventK c.E.H K ev) {r : Root}
    {hd : Header} (hg : a'.store.mem.db.headers.get? r = some hd)
    (hn : hasState a'.store.mem.db r = false) (h0 : a.store.mem.db.headers.get? r = none) :
    ∃ e2 sb e1 b, evs = e2 ++ .block sb :: e1 ∧ ARun c a e1 b ∧ sb.block.root c.E.H = r ∧
      hasState b.store.mem.db sb.block.parentRoot = false := by
  induction h generalizing hd with
  | nil => rw [h0] at hg; cases hg
  | @step evs b ev b' f h1 hs ih =>
    have hk1 : ∀ ev ∈ evs, EventK c.E.H K ev := fun e he => hk e (List.mem_cons_of_mem _ he)
    obtain ⟨ops1, I1, x1⟩ := arun_ext ho W A hR I h1 hk1
    rcases stored_step ho W A hR I1 (hk ev List.mem_cons_self) hs hg with h | h | ⟨sb, rfl, h2, h3⟩
    · rw [h] at hn; cases hn
    · cases hb : b.store.mem.db.headers.get? r with
      | none => exact absurd hb h
      | some hd1 =>
        have hn1 : hasState b.store.mem.db r = false := by
          cases hs1 : hasState b.store.mem.db r with
          | false => rfl
          | true =>
            obtain ⟨ops2, I2, x2⟩ := arun_ext ho W A hR I1 (ARun.step .nil hs)
              (fun e he => by rw [List.mem_singleton] at he; subst he; exact hk _ List.mem_cons_self)
            rw [x2.hasState W I1.node I2.node hs1] at hn; cases hn
        obtain ⟨e2, sb, e1, b1, k1, k2, k3, k4⟩ := ih hk1 hb hn1
        exact ⟨ev :: e2, sb, e1, b1, by rw [k1]; rfl, k2, k3, k4⟩
    · exact ⟨[], sb, evs, b, rfl, h1, h2, h3⟩
end

end Verif.Node
