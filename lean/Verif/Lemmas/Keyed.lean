import Verif.Lemmas.ActorSteps
/-!
# Blocks wait only for blocks without a state

This is kept by every event except the import of a block of one's own that others already wait for.
-/
namespace Verif.Node
open Verif Verif.Db

/-- Every entry of the pending map is for a block without a state, and is not empty. -/
structure Keyed (db : Db) (m : Pending) : Prop where
  state : ∀ k l, m.get? k = some l → hasState db k = false
  ne : ∀ k l, m.get? k = some l → l ≠ []

/-- When the node imports a block of its own, no block it knows names it as its parent. -/
def Unpredicted (H : Hash) (g : State) (bs : List Block) (evs : List Event) : Prop :=
  ∀ sb evs1, Event.own sb :: evs1 <:+ evs → ∀ h, Known H g bs evs1 h →
    h.parentRoot ≠ sb.block.root H

variable {c : Ctx} {a : Actor} {db db' : Db} {m m' : Pending}

theorem Keyed.sub (k : Keyed db m) (h : SubMap m' m) : Keyed db m' := by
  have key : ∀ x l, m'.get? x = some l → m.get? x = some l := by
    intro x l hl
    rcases h x with e | e
    · rw [e] at hl; cases hl
    · rw [← e]; exact hl
  exact ⟨fun x l hl => k.state x l (key x l hl), fun x l hl => k.ne x l (key x l hl)⟩

theorem Keyed.congr (k : Keyed db m) (h : ∀ x, hasState db' x = hasState db x) : Keyed db' m :=
  ⟨fun x l hl => by rw [h]; exact k.state x l hl, k.ne⟩

theorem Keyed.addChild (k : Keyed db m) {p r : Root} (hp : hasState db p = false) :
    Keyed db (addChild m p r) := by
  refine ⟨fun x l hl => ?_, fun x l hl => ?_⟩
  · rw [addChild_get] at hl
    split at hl
    next e => rw [← e]; exact hp
    · exact k.state x l hl
  · rw [addChild_get] at hl
    split at hl
    · have hl := Option.some.inj hl
      rw [← hl]
      split
      next e => intro h; rw [h] at e; cases e
      · simp
    · exact k.ne x l hl

theorem Keyed.walkUp : ∀ (n : Nat) (r : Root) {m : Pending} {ps : AMap Root Root} {e : WalkEnd}
    {m' : Pending} {ps' : AMap Root Root}, Keyed db m →
    walkUp db n r m ps = .ok (e, m', ps') → Keyed db m'
  | 0, _, _, _, _, _, _, _, h => by cases h
  | n + 1, r, m, ps, e, m', ps', k, h => by
    unfold Node.walkUp at h
    split at h
    · cases h; exact k
    · split at h
      · cases h; exact k
      next hs => exact Keyed.walkUp n _ (k.addChild (Bool.eq_false_iff.2 hs)) h

theorem onBlock_err {E : Env} {s s' : Store} {sb : SignedBlock} {x : Err}
    (e : onBlock E s sb = .ok (s', .error x)) : s'.mem.db = s.mem.db := by
  unfold Node.onBlock at e
  split at e
  · cases e
  · split at e
    · cases e
    next g => cases e; exact (getState_frame g).1
    next g =>
      split at e
      · cases e; exact (getState_frame g).1
      · split at e <;> cases e

theorem foldAggs_mem {H : Hash} : ∀ {l : List (AttData × Buffers.Agg)} {s s' : Store},
    foldAggs H s l = .ok s' → s'.mem = s.mem
  | [], _, _, e => by cases e; rfl
  | x :: l, s, s', e => by
    unfold foldAggs foldP at e
    split at e
    · cases e
    next s1 h1 =>
      rw [foldAggs_mem (l := l) e]
      unfold insertNewPayload at h1
      split at h1
      · cases h1
      · cases h1; rfl

/-- Each step of the queue loop. -/
theorem Keyed.process (ho : ∀ l, (c.order l).Perm l) (k : Keyed a.store.mem.db a.pending)
    {sb : SignedBlock} {o : Out} (e : a.process c sb = .ok o) :
    Keyed o.actor.store.mem.db o.actor.pending := by
  have hd : ∀ {a1 : Actor} {r : Root}, a.discard c r = .ok a1 →
      Keyed a1.store.mem.db a1.pending := by
    intro a1 r h
    obtain ⟨m', ps', e1, R⟩ := discard_removed ho (a.pending.length + 1) r a.pending a.parents
      (Nat.lt_succ_self _)
    unfold Actor.discard at h
    rw [e1] at h
    cases h
    exact k.sub R.sub
  unfold Actor.process at e
  simp only at e
  split at e
  · split at e
    · cases e
    next h1 => cases e; exact hd h1
  split at e
  · split at e
    · cases e
    next h1 => cases e; exact hd h1
  split at e
  next hs =>
    unfold Actor.pend at e
    simp only at e
    split at e
    · cases e
    have k1 : Keyed (insertPendingBlock c.E.H a.store.mem.db (sb.block.root c.E.H) sb)
        (Node.addChild a.pending sb.block.parentRoot (sb.block.root c.E.H)) :=
      (Keyed.congr k (fun x => hasState_write _ _ _ x _)).addChild
        (by rw [hasState_write]; exact Bool.eq_false_iff.2 hs)
    split at e
    · cases e
    next h => cases e; exact k1.walkUp _ _ h
    next h =>
      split at e
      · cases e
      · cases e; exact k1.walkUp _ _ h
  · split at e
    · cases e
    next s x h =>
      cases e
      show Keyed s.mem.db a.pending
      rw [onBlock_err h]; exact k
    next s h =>
      split at e
      · cases e
      next s2 h2 =>
        cases e
        have hm : s2.mem = s.mem := foldAggs_mem h2
        have hst := onBlock_states h
        unfold Actor.collect
        simp only
        cases hg : a.pending.get? (sb.block.root c.E.H) with
        | none =>
          refine ⟨fun x l hl => ?_, k.ne⟩
          show hasState s2.mem.db x = false
          rw [hm, hst x (by intro h; rw [h, hg] at hl; cases hl)]
          exact k.state x l hl
        | some l0 =>
          have hsub : ∀ x l, (a.pending.erase (sb.block.root c.E.H)).get? x = some l →
              x ≠ sb.block.root c.E.H ∧ a.pending.get? x = some l := by
            intro x l hl
            rw [AMap.get?_erase] at hl
            split at hl
            · cases hl
            next h => exact ⟨fun e => h e.symm, hl⟩
          refine ⟨fun x l hl => ?_, fun x l hl => k.ne x l (hsub x l hl).2⟩
          obtain ⟨h1, h2⟩ := hsub x l hl
          show hasState s2.mem.db x = false
          rw [hm, hst x h1]
          exact k.state x l h2

/-- The queue loop. -/
theorem Keyed.drain (ho : ∀ l, (c.order l).Perm l) : ∀ (n : Nat) {a a' : Actor}
    {q : List SignedBlock} {f : List Root}, Keyed a.store.mem.db a.pending →
    drain c n a q = .ok (a', f) → Keyed a'.store.mem.db a'.pending
  | n, a, a', [], f, k, h => by
    cases n <;> (unfold Node.drain at h; cases h; exact k)
  | 0, _, _, _ :: _, _, _, h => by cases h
  | n + 1, a, a', sb :: q, f, k, h => by
    unfold Node.drain at h
    split at h
    · cases h
    next o h1 =>
      split at h
      · cases h
      next h2 => cases h; exact Keyed.drain ho n (k.process ho h1) h2

section
variable {t : Nat} {vals : List Validator} {bs : List Block} {a0 : State}
  {body : Option (List AggAtt)} {K : Header → Prop} {rank : Root → Nat} {root : Root}
  {anchor : State} {ops : List Db.Op}

/-- One event; a block of the node's own must not be waited for. -/
theorem Keyed.step (ho : ∀ l, (c.order l).Perm l) (W : World c.E t vals bs a0 K)
    (I : AInv c.E t vals a0 body K rank root anchor ops a) (k : Keyed a.store.mem.db a.pending)
    {ev : Event} (hown : ∀ sb, ev = .own sb → ∀ h, K h → h.parentRoot ≠ sb.block.root c.E.H)
    {a' : Actor} {f : List Root} (e : a.step c ev = .ok (a', f)) :
    Keyed a'.store.mem.db a'.pending := by
  by_cases hb : ∃ sb, ev = .block sb
  · obtain ⟨sb, rfl⟩ := hb
    have e : a.onBlock c sb = .ok (a', f) := e
    unfold Actor.onBlock at e
    split at e
    · cases e
    next a1 f1 h1 =>
      split at e
      · cases e
      next db h2 =>
        cases e
        obtain ⟨-, g2, g3, -⟩ := pruneOldData_frame h2
        refine (k.drain ho _ h1).congr (fun x => ?_)
        show hasState db x = _
        unfold hasState
        rw [g2, g3]
  · have hb : ∀ sb, ev ≠ .block sb := fun sb h => hb ⟨sb, h⟩
    by_cases hr : ev = .restart
    · subst hr
      unfold Actor.step at e
      simp only at e
      split at e
      · cases e
      · cases e; exact ⟨fun _ _ h => (by cases h), fun _ _ h => (by cases h)⟩
    obtain ⟨e1, e2, -⟩ := Actor.step_other hb hr e
    rw [e2]
    by_cases ho : ∃ sb, ev = .own sb
    · obtain ⟨sb, rfl⟩ := ho
      have e1 : R.store (onBlock c.E a.store sb) = .ok a'.store := e1
      unfold R.store at e1
      split at e1
      · cases e1
      next s r h1 =>
        cases e1
        refine ⟨fun x l hl => ?_, k.ne⟩
        rw [onBlock_states h1 x ?_]
        · exact k.state x l hl
        · intro hx
          cases l with
          | nil => exact k.ne x [] hl rfl
          | cons y l =>
            obtain ⟨-, h, q1, q2⟩ := I.maps.child x y ⟨_, hl, List.mem_cons_self⟩
            exact hown sb rfl h (I.node.hdrK W y h q1).1 (q2.trans hx)
    · exact k.congr (step_still (fun sb => ⟨hb sb, fun h => ho ⟨sb, h⟩⟩) e1).1.hasState

end

end Verif.Node
