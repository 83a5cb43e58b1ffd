import Verif.Model.Control
import Verif.Props.C115_Coverage
import Verif.Props.C53_Serve
import Verif.Props.C111_Race
/-!
# C116: the operator's endpoints
-/
namespace Verif.Node
open Verif Verif.Db Verif.Sync Verif.Buffers Verif.Build

/-- Any sequence of events of a node and its endpoints (newest first), with all replies and all
that the node did (oldest first). -/
inductive ORun (c : VCtx) (u : Subnets) (n : Ctl) :
    List OEvent → Ctl → List Reply → List Deed → Prop
  | nil : ORun c u n [] n [] []
  | step {evs : List OEvent} {m m' : Ctl} {rs r : List Reply} {ds d : List Deed} {ev : OEvent} :
      ORun c u n evs m rs ds → m.step c u ev = .ok (m', r, d) →
      ORun c u n (ev :: evs) m' (rs ++ r) (ds ++ d)

/-- The role the operator last set, since the process started; before that, the one of the command
line. -/
def roleSet (option : Bool) : List OEvent → Bool
  | [] => option
  | .post (.enabled b) :: _ => b
  | .act .restart :: _ => option
  | _ :: evs => roleSet option evs

section
variable {c : VCtx} {u : Subnets} {a0 : State} {body : Option (List AggAtt)} {t : Nat}
  {vals : List Validator} {bs : List Block}

theorem step_option {m m' : Ctl} {ev : OEvent} {r : List Reply} {d : List Deed}
    (h : m.step c u ev = .ok (m', r, d)) :
    m'.option = m.option := by
  unfold Ctl.step at h
  split at h
  · cases h; rfl
  · split at h
    · cases h
    · cases h; rfl
  · split at h
    · cases h; rfl
    · split at h
      · cases h
      · cases h; rfl
  · cases h; rfl
  · cases h; rfl
  · cases h; rfl
  · cases h; rfl
  · cases h; rfl
  · split at h
    · cases h
    · cases h; rfl

theorem ORun.option {n : ANode} {o : Bool} {evs : List OEvent} {m : Ctl} {rs : List Reply}
    {ds : List Deed} (h : ORun c u (n.controlled o) evs m rs ds) : m.option = o := by
  induction h with
  | nil => rfl
  | step _ e ih => rw [step_option e, ih]

theorem step_role {m m' : Ctl} {ev : OEvent} {r : List Reply} {d : List Deed}
    (h : m.step c u ev = .ok (m', r, d)) :
    m'.role = match ev with
      | .post (.enabled b) => b
      | .act .restart => m.option
      | _ => m.role := by
  cases ev with
  | read => cases h; rfl
  | get => cases h; rfl
  | post b => cases b <;> cases h <;> rfl
  | syncing now =>
    simp only [Ctl.step] at h
    split at h
    · cases h
    · cases h; rfl
  | act ev =>
    cases ev with
    | restart =>
      simp only [Ctl.step] at h
      split at h
      · cases h
      · cases h; rfl
    | _ =>
      simp only [Ctl.step] at h
      split at h
      · cases h; rfl
      · split at h
        · cases h
        · cases h; rfl

theorem ORun.role {n : ANode} {o : Bool} {evs : List OEvent} {m : Ctl} {rs : List Reply}
    {ds : List Deed} (h : ORun c u (n.controlled o) evs m rs ds) : m.role = roleSet o evs := by
  induction h with
  | nil => rfl
  | @step evs m m' rs r ds d ev h e ih =>
    rw [step_role e, h.option, ih]
    cases ev with
    | post b => cases b <;> rfl
    | act ev => cases ev <;> rfl
    | _ => rfl

/-- **C116, the replies.** At any point of any run: `GET` answers with the role last set, `POST` with a
proper body sets it and answers with the role before, any other body is refused and changes nothing. -/
theorem C116_replies {n : ANode} {o : Bool} {evs : List OEvent} {m : Ctl} {rs : List Reply}
    {ds : List Deed} (h : ORun c u (n.controlled o) evs m rs ds) :
    m.step c u .get = .ok (m, [.role (roleSet o evs)], []) ∧
    (∀ b, ∃ m', m.step c u (.post (.enabled b)) = .ok (m', [.toggled b (roleSet o evs)], []) ∧
      m'.node = m.node ∧ m'.status = m.status) ∧
    ∀ body : PostBody, (∀ b, body ≠ .enabled b) → m.step c u (.post body) = .ok (m, [.badRequest], []) := by
  refine ⟨?_, fun b => ⟨{ m with role := b }, ?_, rfl, rfl⟩, fun body hb => ?_⟩
  · rw [← h.role]; rfl
  · rw [← h.role]; rfl
  · cases body with
    | enabled b => exact absurd rfl (hb b)
    | _ => rfl

/-- The role in hand is one that was set when the actor last read it. -/
theorem ORun.hand {n : ANode} {o : Bool} {evs : List OEvent} {m : Ctl} {rs : List Reply}
    {ds : List Deed} (h : ORun c u (n.controlled o) evs m rs ds) {b : Bool} (hb : m.inHand = some b) :
    ∃ later earlier, evs = later ++ .read :: earlier ∧ (∀ ev, OEvent.act ev ∉ later) ∧
      OEvent.read ∉ later ∧ b = roleSet o earlier := by
  induction h with
  | nil => cases hb
  | @step evs m m' rs r ds d ev h e ih =>
    have keep : m'.inHand = m.inHand → (∀ x, ev ≠ .act x) → ev ≠ .read →
        ∃ later earlier, ev :: evs = later ++ .read :: earlier ∧ (∀ ev, OEvent.act ev ∉ later) ∧
          OEvent.read ∉ later ∧ b = roleSet o earlier := by
      intro k k1 k2
      obtain ⟨later, earlier, h1, h2, h3, h4⟩ := ih (k ▸ hb)
      refine ⟨ev :: later, earlier, by rw [h1]; rfl, fun x hx => ?_, fun hx => ?_, h4⟩
      · rcases List.mem_cons.1 hx with hx | hx
        · exact k1 x hx.symm
        · exact h2 x hx
      · rcases List.mem_cons.1 hx with hx | hx
        · exact k2 hx.symm
        · exact h3 hx
    cases ev with
    | read =>
      cases e
      refine ⟨[], evs, rfl, by simp, by simp, ?_⟩
      rw [← h.role]
      exact (Option.some.inj hb).symm
    | get => cases e; exact keep rfl (by simp) (by simp)
    | post x => cases x <;> cases e <;> exact keep rfl (by simp) (by simp)
    | syncing now =>
      simp only [Ctl.step] at e
      split at e
      · cases e
      · cases e; exact keep rfl (by simp) (by simp)
    | act ev =>
      exfalso
      cases ev with
      | restart =>
        simp only [Ctl.step] at e
        split at e
        · cases e
        · cases e; cases hb
      | _ =>
        simp only [Ctl.step] at e
        split at e
        next hn =>
          cases e
          rw [hn] at hb
          cases hb
        · split at e
          · cases e
          · cases e; cases hb

/-- The events the node handled, what it signed and what it published, as in `ANRun`. -/
def deedEvents (ds : List Deed) : List AEvent := (ds.map Deed.ev).reverse
def deedOut (ds : List Deed) : List Signed := ds.flatMap Deed.out
def deedPub (ds : List Deed) : List Published := ds.flatMap Deed.pub

theorem deedEvents_append (ds d : List Deed) : deedEvents (ds ++ d) = deedEvents d ++ deedEvents ds := by
  simp [deedEvents]

/-- An event of the node, not a restart. -/
theorem step_act {m m' : Ctl} {ev : AEvent} {r : List Reply} {d : List Deed} (hr : ev ≠ .restart)
    (e : m.step c u (.act ev) = .ok (m', r, d)) :
    r = [] ∧ ((m.inHand = none ∧ m' = m ∧ d = []) ∨ ∃ b n l p, m.inHand = some b ∧
      m.node.step c u (ev.inRole b) = .ok (n, l, p) ∧ d = [⟨ev.inRole b, l, p⟩] ∧
      m' = { m with node := n, status := m.statusAfter n (ev.inRole b), inHand := none }) := by
  cases ev with
  | restart => exact absurd rfl hr
  | _ =>
    simp only [Ctl.step] at e
    split at e
    next hn => cases e; exact ⟨rfl, .inl ⟨hn, rfl, rfl⟩⟩
    next b hb =>
      split at e
      · cases e
      next n l p e1 => cases e; exact ⟨rfl, .inr ⟨b, n, l, p, hb, e1, rfl, rfl⟩⟩

/-- A restart. -/
theorem step_restart {m m' : Ctl} {r : List Reply} {d : List Deed}
    (e : m.step c u (.act .restart) = .ok (m', r, d)) :
    r = [] ∧ ∃ n l p, m.node.step c u .restart = .ok (n, l, p) ∧ d = [⟨.restart, l, p⟩] ∧
      m' = n.controlled m.option := by
  simp only [Ctl.step] at e
  split at e
  · cases e
  next n l p e1 => cases e; exact ⟨rfl, n, l, p, e1, rfl, rfl⟩

/-- A request, or the actor reading the role. -/
theorem step_ask {m m' : Ctl} {ev : OEvent} {r : List Reply} {d : List Deed} (hr : ∀ x, ev ≠ .act x)
    (e : m.step c u ev = .ok (m', r, d)) : d = [] ∧ m'.node = m.node ∧ m'.status = m.status := by
  cases ev with
  | read => cases e; exact ⟨rfl, rfl, rfl⟩
  | get => cases e; exact ⟨rfl, rfl, rfl⟩
  | post b => cases b <;> cases e <;> exact ⟨rfl, rfl, rfl⟩
  | syncing now =>
    simp only [Ctl.step] at e
    split at e
    · cases e
    · cases e; exact ⟨rfl, rfl, rfl⟩
  | act x => exact absurd rfl (hr x)

/-- What the node did is a run of the node. -/
theorem ORun.nodes {M : Ctl} {evs : List OEvent} {m : Ctl} {rs : List Reply}
    {ds : List Deed} (h : ORun c u M evs m rs ds) :
    ANRun c u M.node (deedEvents ds) m.node (deedOut ds) (deedPub ds) := by
  induction h with
  | nil => exact .nil
  | @step evs m m' rs r ds d ev h e ih =>
    have one : ∀ {x : AEvent} {l : List Signed} {p : List Published}, d = [⟨x, l, p⟩] →
        m.node.step c u x = .ok (m'.node, l, p) →
        ANRun c u M.node (deedEvents (ds ++ d)) m'.node (deedOut (ds ++ d)) (deedPub (ds ++ d)) := by
      intro x l p hd hs
      subst hd
      have := ih.step hs
      simpa [deedEvents, deedOut, deedPub] using this
    have zero : d = [] → m'.node = m.node →
        ANRun c u M.node (deedEvents (ds ++ d)) m'.node (deedOut (ds ++ d)) (deedPub (ds ++ d)) := by
      intro hd hm
      subst hd
      rw [List.append_nil, hm]
      exact ih
    by_cases ha : ∃ x, ev = .act x
    · obtain ⟨x, rfl⟩ := ha
      by_cases hr : x = .restart
      · subst hr
        obtain ⟨-, n, l, p, h1, h2, h3⟩ := step_restart e
        exact one h2 (by rw [h1, h3]; rfl)
      · obtain ⟨-, ⟨-, h2, h3⟩ | ⟨b, n, l, p, -, h1, h2, h3⟩⟩ := step_act hr e
        · exact zero h3 (by rw [h2])
        · exact one h2 (by rw [h1, h3])
    · obtain ⟨h1, h2, -⟩ := step_ask (fun x hx => ha ⟨x, hx⟩) e
      exact zero h1 h2

/-- **C116, the role in use.** The node's part of a run is a run of the node, as all other properties
speak about; and whatever the node does with a message it does in the role that was set when the actor
took the message up. -/
theorem C116_acts {n : ANode} {o : Bool} {evs : List OEvent} {m : Ctl} {rs : List Reply}
    {ds : List Deed} (h : ORun c u (n.controlled o) evs m rs ds) :
    ANRun c u n (deedEvents ds) m.node (deedOut ds) (deedPub ds) ∧
    ∀ {m' : Ctl} {r : List Reply} {d : List Deed} {ev : AEvent}, ev ≠ .restart →
      m.step c u (.act ev) = .ok (m', r, d) → ∀ x ∈ d,
      ∃ later earlier, evs = later ++ .read :: earlier ∧ (∀ ev, OEvent.act ev ∉ later) ∧
        OEvent.read ∉ later ∧ x.ev = ev.inRole (roleSet o earlier) ∧
        m.node.step c u x.ev = .ok (m'.node, x.out, x.pub) := by
  refine ⟨h.nodes, fun {m' r d ev} hr e x hx => ?_⟩
  obtain ⟨-, ⟨-, -, h3⟩ | ⟨b, n', l, p, hb, h1, h2, h3⟩⟩ := step_act hr e
  · subst h3; cases hx
  · subst h2
    rw [List.mem_singleton] at hx
    subst hx
    obtain ⟨later, earlier, k1, k2, k3, k4⟩ := h.hand hb
    exact ⟨later, earlier, k1, k2, k3, by rw [← k4], by rw [h1, h3]⟩

theorem inRole_off (ev : AEvent) (now : Nat) : ¬ (ev.inRole false = .timer now true ∨
    ev.inRole false = .check now true ∨
    ∃ v d sig, ev.inRole false = .attestation v d sig now true) := by
  cases ev <;> simp [AEvent.inRole]

/-- **C116, off is off.** If the role is off when the actor takes up a message, then from there on, until
somebody switches it on again or the process is started anew, no aggregation session is started. -/
theorem C116_off {n : ANode} {o : Bool} {evs later : List OEvent} {m m' : Ctl} {rs rs' : List Reply}
    {ds ds' : List Deed} (h : ORun c u (n.controlled o) (.read :: evs) m rs ds)
    (hoff : roleSet o evs = false) (h' : ORun c u m later m' rs' ds')
    (hp : OEvent.post (.enabled true) ∉ later) (hr : OEvent.act .restart ∉ later) :
    m'.node.workers.length ≤ m.node.workers.length := by
  have h0 : m.role = false := by rw [h.role]; exact hoff
  have h1 : m.inHand = some false := by
    cases h with
    | step h e => cases e; exact congrArg some h0
  suffices H : m'.role = false ∧ m'.inHand ≠ some true ∧
      m'.node.workers.length ≤ m.node.workers.length from H.2.2
  clear h
  induction h' with
  | nil => exact ⟨h0, by rw [h1]; decide, Nat.le_refl _⟩
  | @step later x x' rs r ds d ev g e ih =>
    obtain ⟨i1, i2, i3⟩ := ih (fun k => hp (List.mem_cons_of_mem _ k)) (fun k => hr (List.mem_cons_of_mem _ k))
    have k1 : x'.role = false := by
      rw [step_role e]
      split
      next b _ =>
        by_cases hb : b = true
        · subst hb; exact absurd (List.mem_cons_self ..) hp
        · simpa using hb
      · exact absurd (List.mem_cons_self ..) hr
      · exact i1
    by_cases ha : ∃ y, ev = .act y
    · obtain ⟨y, rfl⟩ := ha
      have hy : y ≠ .restart := fun k => hr (k ▸ List.mem_cons_self ..)
      obtain ⟨-, ⟨-, g2, -⟩ | ⟨b, n', l, p, g0, g1, -, g3⟩⟩ := step_act hy e
      · subst g2; exact ⟨i1, i2, i3⟩
      · subst g3
        refine ⟨k1, by simp, ?_⟩
        have hb : b = false := by
          cases b with
          | false => rfl
          | true => exact absurd g0 i2
        subst hb
        refine Nat.le_trans (Nat.le_of_not_lt fun hw => ?_) i3
        obtain ⟨now, hn⟩ := C114_role g1 hw
        exact inRole_off y now hn
    · obtain ⟨-, g2, -⟩ := step_ask (fun y hy => ha ⟨y, hy⟩) e
      refine ⟨k1, ?_, by rw [g2]; exact i3⟩
      cases ev with
      | act y => exact absurd ⟨y, rfl⟩ ha
      | read => cases e; simp [i1]
      | get => cases e; exact i2
      | post b => cases b <;> cases e <;> exact i2
      | syncing now =>
        simp only [Ctl.step] at e
        split at e
        · cases e
        · cases e; exact i2

/-! ## The sync endpoint -/

theorem cancel_sync (n : ANode) : n.cancel.node.sync = n.node.sync := by
  unfold ANode.cancel
  split <;> rfl

theorem start_sync {n n' : ANode} {slot : Nat} (h : n.start c slot = .ok n') : n'.node.sync = n.node.sync := by
  unfold ANode.start at h
  simp only at h
  split at h
  · cases h
  · split at h
    · cases h; exact cancel_sync n
    · cases h; exact cancel_sync n

theorem early_sync {n n' : ANode} {now : Nat} {agg : Bool} (h : n.early c u now agg = .ok n') :
    n'.node.sync = n.node.sync := by
  unfold ANode.early at h
  split at h
  · cases h; rfl
  · split at h
    · cases h
    · simp only at h
      split at h
      · cases h; rfl
      · rw [start_sync h]

theorem other_sync {n n' : ANode} {ev : Event} (he : ev ≠ .restart) (h : n.other c ev = .ok n') :
    n'.node.sync = n.node.sync := by
  unfold ANode.other VNode.step at h
  split at h
  · cases h
  next e =>
    simp only at e
    split at e
    · cases e
    · cases e
      cases h
      cases ev with
      | restart => exact absurd rfl he
      | _ => rfl

theorem map_ok {y : P ANode} {n' : ANode} {l : List Signed} {p : List Published}
    (e : y.map (fun n => (n, ([] : List Signed), ([] : List Published))) = .ok (n', l, p)) :
    y = .ok n' := by
  cases y with
  | error k => cases e
  | ok z => cases e; rfl

theorem step_sync {n n' : ANode} {ev : AEvent} {l : List Signed} {p : List Published}
    (h : n.step c u ev = .ok (n', l, p)) (ht : ∀ now agg, ev = .timer now agg → tickLive n.node.actor.store now = false)
    (hr : ev ≠ .restart) : n'.node.sync = n.node.sync := by
  cases ev with
  | restart => exact absurd rfl hr
  | timer now agg =>
    have hl := ht now agg rfl
    unfold ANode.step at h
    simp only at h
    split at h
    · cases h
    next m l' e1 =>
    split at h
    · cases h
    next n2 e2 =>
    cases h
    have k1 : m.sync = n.node.sync := by
      unfold VNode.tick at e1
      unfold tickLive at hl
      simp only at e1 hl
      split at e1
      · cases e1; rfl
      next hg =>
        rw [if_neg hg] at hl
        split at e1
        · cases e1
        · split at e1
          · cases e1
          next st s he =>
            rw [he] at hl
            simp only [Bool.not_eq_false'] at hl
            rw [if_pos hl] at e1
            cases e1; rfl
    unfold ANode.tickSession at e2
    simp only at e2
    split at e2
    · cases e2; exact k1
    · split at e2
      · rw [start_sync e2]; exact k1
      · cases e2; exact k1
  | block sb => exact other_sync (by simp) (map_ok h)
  | aggregate d a => exact other_sync (by simp) (map_ok h)
  | attestation v d sig now agg =>
    unfold ANode.step at h
    simp only at h
    split at h
    · cases h
    next n1 e1 =>
    have := other_sync (by simp) e1
    split at h
    · rw [early_sync (map_ok h), this]
    · cases h; exact this
  | check now agg => exact early_sync (map_ok h)
  | begin k => cases h; rfl
  | finish k now =>
    unfold ANode.step at h
    simp only at h
    split at h
    · cases h; rfl
    · cases h; rfl
  | deliver k now =>
    unfold ANode.step at h
    simp only at h
    split at h
    · cases h; rfl
    · split at h
      · cases h; rfl
      · split at h
        · cases h
        next e =>
          cases h
          unfold ANode.take at e
          split at e
          · cases e; rfl
          · split at e
            · cases e
            next e2 =>
              cases e
              rw [other_sync (by simp) e2]
  | deadline id =>
    cases h
    split
    · unfold ANode.cancel
      split <;> rfl
    · rfl

theorem restart_sync {n n' : ANode} {l : List Signed} {p : List Published}
    (h : n.step c u .restart = .ok (n', l, p)) : n'.node.sync.syncing = false := by
  have h := h
  unfold ANode.step at h
  simp only at h
  cases e : n.other c .restart with
  | error k => rw [e] at h; cases h
  | ok z =>
    rw [e] at h
    cases h
    unfold ANode.other VNode.step at e
    split at e
    · cases e
    next e1 =>
      simp only at e1
      split at e1
      · cases e1
      · cases e1
        cases e
        rfl

/-- The published status says syncing exactly while the tracker does. -/
theorem ORun.status {M : Ctl} {evs : List OEvent} {m : Ctl} {rs : List Reply} {ds : List Deed}
    (h0 : M.status = .syncing ↔ M.node.node.sync.syncing = true) (h : ORun c u M evs m rs ds) :
    m.status = .syncing ↔ m.node.node.sync.syncing = true := by
  induction h with
  | nil => exact h0
  | @step evs m m' rs r ds d ev h e ih =>
    by_cases ha : ∃ y, ev = .act y
    · obtain ⟨y, rfl⟩ := ha
      by_cases hy : y = .restart
      · subst hy
        obtain ⟨-, n, l, p, h1, h2, h3⟩ := step_restart e
        subst h3
        have := restart_sync h1
        show SyncCode.idle = .syncing ↔ n.node.sync.syncing = true
        rw [this]
        simp
      · obtain ⟨-, ⟨-, g2, -⟩ | ⟨b, n', l, p, g0, g1, -, g3⟩⟩ := step_act hy e
        · rw [g2]; exact ih
        · subst g3
          show m.statusAfter n' (y.inRole b) = .syncing ↔ n'.node.sync.syncing = true
          have hr : y.inRole b ≠ .restart := by cases y <;> simp_all [AEvent.inRole]
          by_cases hl : ∃ now agg, y.inRole b = .timer now agg ∧
              tickLive m.node.node.actor.store now = true
          · obtain ⟨now, agg, k1, k2⟩ := hl
            rw [k1]
            simp only [Ctl.statusAfter, k2, if_true]
            cases n'.node.sync.syncing <;> simp
          · have k : m.statusAfter n' (y.inRole b) = m.status := by
              cases hy' : y.inRole b with
              | timer now agg =>
                have : tickLive m.node.node.actor.store now ≠ true := fun k => hl ⟨now, agg, hy', k⟩
                simp only [Ctl.statusAfter, if_neg this]
              | restart => exact absurd hy' hr
              | _ => rfl
            rw [k, step_sync g1 (fun now agg hn => by
              cases hk : tickLive m.node.node.actor.store now with
              | false => rfl
              | true => exact absurd ⟨now, agg, hn, hk⟩ hl) hr]
            exact ih
    · obtain ⟨-, g2, g3⟩ := step_ask (fun y hy => ha ⟨y, hy⟩) e
      rw [g2, g3]; exact ih

/-- **C116, the sync endpoint.** In every run of a node that just started, at any wall clock: the request
never panics; it says `is_syncing` exactly when the node takes itself to be behind, which is what keeps it
from its duties (C24); it gives the slot of the head, how far that is behind the clock (0 if ahead), and
the finalized slot, which is not above the head's. -/
theorem C116_syncing {n : ANode} {o : Bool} {evs : List OEvent} {m : Ctl} {rs : List Reply}
    {ds : List Deed} (ho : ∀ l, (c.order l).Perm l) (h0 : n.Fresh c a0 body)
    (hs : n.node.sync.syncing = false) (h : ORun c u (n.controlled o) evs m rs ds)
    (W : World (envOf c.X c.H) t vals bs a0
      (HeaderIn c.H (State.fromGenesis c.H t vals) bs (deedEvents ds) (deedOut ds))) (now : Nat) :
    ∃ hd, m.node.node.actor.store.mem.db.headers.get? m.node.node.actor.store.mem.db.head = some hd ∧
      m.step c u (.syncing now) = .ok (m, [.syncing m.node.node.sync.syncing hd.slot
        ((now - m.node.node.actor.store.genesisTime * 1000) / msPerSlot - hd.slot)
        m.node.node.actor.store.mem.db.finalized.slot], []) ∧
      m.node.node.actor.store.mem.db.finalized.slot ≤ hd.slot := by
  obtain ⟨evs', K, k1, -⟩ := h.nodes.kept h0
  have W' := Accounted.world (E := envOf c.X c.H) k1 W
  obtain ⟨st, -, h2, ⟨hd, h3, h4⟩, -, h5, -, -, h6⟩ := Serve.C70_status ho W' K.reach
  have hst : decide (m.status = .syncing) = m.node.node.sync.syncing := by
    have := h.status (by show SyncCode.idle = .syncing ↔ n.node.sync.syncing = true; rw [hs]; simp)
    cases hv : m.node.node.sync.syncing with
    | true => exact decide_eq_true (this.2 hv)
    | false => exact decide_eq_false (fun k => by rw [this.1 k] at hv; cases hv)
  rw [h2] at h3
  refine ⟨hd, h3, ?_, ?_⟩
  · simp only [Ctl.step, Ctl.syncingNow, headSlot, Store.header, h3, hst]
  · rw [h4, ← h5]; exact h6

end

section
open Verif.Race
variable {H : Hash} {a0 : State} {body : Option (List AggAtt)} {root : Root} {anchor : State}
  {see : Nat → Db} {ops : Nat → List Op} {m : Nat → Mem}

/-- **C116, while the node writes.** The request never panics either, and gives the slot of a block that
was the head when it came in. -/
theorem C116_syncing_seen (M : Moments H a0 body root anchor see ops m) (status : SyncCode) (g now : Nat) :
    ∃ hd, (see 0).headers.get? (see 0).head = some hd ∧
      syncingSeen see status g now = .ok (.syncing (decide (status = .syncing)) hd.slot
        ((now - g * 1000) / msPerSlot - hd.slot) (see 2).finalized.slot) := by
  obtain ⟨hd, e⟩ := (M.headAnc 0).right
  refine ⟨hd, e, ?_⟩
  unfold syncingSeen
  simp only [M.hdr (by omega : 0 ≤ 1) e]

end

namespace Witness
section
open Verif.Race Verif.Witness Verif.Db.Witness Verif.Race.Witness

/-- Two blocks come, and the second makes the first final. -/
def opsT : List Op := [.updateCheckpoints 3 (some ⟨2, 1⟩) (some ⟨2, 1⟩), .insertState 3 st2, .insertSigned sb2,
  .readState 1, .insertState 2 st1, .insertSigned sb1]

def mT : Mem := get! (Db.step wH m5 (.updateCheckpoints 3 (some ⟨2, 1⟩) (some ⟨2, 1⟩)))

theorem runT : Run wH wG (some []) 1 anchorS opsT mT := by
  have r1 := run0.step (op := .insertSigned sb1) (m' := m1) trivial (by decide +kernel)
  have r2 := r1.step (op := .insertState 2 st1) (m' := m2)
    ⟨by decide +kernel, ⟨sb1, .inl (by simp), by decide +kernel⟩,
      ⟨anchorS, by decide +kernel, vc1⟩, .inl (by decide +kernel)⟩ (by decide +kernel)
  have r3 := r2.step (op := .readState 1) (m' := m3) trivial (by decide +kernel)
  have r4 := r3.step (op := .insertSigned sb2) (m' := m4) trivial (by decide +kernel)
  have r5 := r4.step (op := .insertState 3 st2) (m' := m5)
    ⟨by decide +kernel, ⟨sb2, .inl (by simp), by decide +kernel⟩,
      ⟨st1, by decide +kernel, vc2⟩, .inl (by decide +kernel)⟩ (by decide +kernel)
  exact r5.step (op := .updateCheckpoints 3 (some ⟨2, 1⟩) (some ⟨2, 1⟩)) (m' := mT) hanc6 (by decide +kernel)

end
end Witness

open Verif.Race Verif.Witness Verif.Db.Witness Verif.Race.Witness Witness in
/-- **C116, while the node writes: not as at one moment (F43).** The head is read before the finalized
checkpoint; if blocks come in between, the answer can have a finalized slot above the head's. -/
theorem C116_torn : ∃ (see : Nat → Db) (ops : Nat → List Op) (m : Nat → Mem),
    Moments wH wG (some []) 1 anchorS see ops m ∧
    syncingSeen see .synced 0 8000 = .ok (.syncing false 0 2 1) :=
  ⟨_, _, _, moments_two 2 run0 (later := opsT) runT (collisionFree_of_list (by decide +kernel)),
    by decide +kernel⟩

namespace Witness
open Verif.Witness

/-- Run the events (newest first). -/
def orun (c : VCtx) (u : Subnets) (n : Ctl) : List OEvent → P (Ctl × List Reply × List Deed)
  | [] => .ok (n, [], [])
  | ev :: evs =>
    match orun c u n evs with
    | .error e => .error e
    | .ok (m, rs, ds) =>
      match m.step c u ev with
      | .error e => .error e
      | .ok (m, r, d) => .ok (m, rs ++ r, ds ++ d)

theorem orun_run {c : VCtx} {u : Subnets} {n : Ctl} : ∀ {evs : List OEvent} {m : Ctl}
    {rs : List Reply} {ds : List Deed}, orun c u n evs = .ok (m, rs, ds) → ORun c u n evs m rs ds
  | [], _, _, _, h => by cases h; exact .nil
  | ev :: evs, m, rs, ds, h => by
    unfold orun at h
    split at h
    · cases h
    next e1 =>
      split at h
      · cases h
      next e2 => cases h; exact (orun_run e1).step e2

/-- A node started without the role. A bad request, then the role is switched on; block 1 and two votes
for it come; the role is switched off while the tick of interval 2 is being handled. -/
def ctlEvs : List OEvent :=
  [ .act (.timer 5600 false), .post (.enabled false), .read ] ++
  [ .act (.attestation 1 (vote [] 0 1).data 1 4950 false), .read,
    .act (.attestation 0 (vote [] 0 1).data 1 4920 false), .read,
    .act (.timer 4900 false), .read, .act (.block (sgn (mkBlock 1 0 []))), .read,
    .act (.timer 4000 false), .read ] ++
  [ .post (.enabled true), .post .notBool, .get ]

/-- What follows: the next message, a vote for slot 1, and the tick of interval 2 of the next slot. -/
def ctlLater : List OEvent :=
  [ .act (.timer 9600 true), .read, .act (.attestation 2 (vote [] 0 1).data 1 5650 true) ]

def ctlSeen (r : P (Ctl × List Reply × List Deed)) : Option (List Reply × Nat × Nat) :=
  r.toOption.map (fun x => (x.2.1, x.1.node.workers.length, (deedEvents x.2.2).length))

def ctlDeeds : List Deed := match orun sessCtx oneSubnet (sessNode.controlled false) ctlEvs with
  | .ok (_, _, ds) => ds
  | .error _ => []

/-- Non-vacuity: this run meets the hypotheses. The session is started in the role read before the switch
(the replies, the number of sessions and of messages handled); nothing is started afterwards. -/
example : sessNode.Fresh sessCtx wG (some []) ∧ sessNode.node.sync.syncing = false ∧
    (∀ l, (sessCtx.order l).Perm l) ∧
    World (envOf wX wH) 0 wVals [] wG (HeaderIn wH wG [] (deedEvents ctlDeeds) (deedOut ctlDeeds)) ∧
    (∃ m, ORun sessCtx oneSubnet (sessNode.controlled false) ctlEvs m
      [.role false, .badRequest, .toggled true false, .toggled false true] ctlDeeds ∧
      m.node.workers.length = 1) ∧
    roleSet false ctlEvs = false ∧
    OEvent.post (.enabled true) ∉ ctlLater ∧ OEvent.act .restart ∉ ctlLater ∧
    ctlSeen (orun sessCtx oneSubnet (sessNode.controlled false)
        (.syncing 14000 :: .get :: (ctlLater ++ .read :: ctlEvs))) =
      some ([.role false, .badRequest, .toggled true false, .toggled false true, .role false,
        .syncing false 1 2 0], 1, 8) := by
  have h1 : ctlSeen (orun sessCtx oneSubnet (sessNode.controlled false) ctlEvs) =
      some ([.role false, .badRequest, .toggled true false, .toggled false true], 1, 6) := by
    decide +kernel
  refine ⟨sessNode_fresh, rfl, fun l => .refl _,
    world_asEvents (rWorld (by decide +kernel) (by decide +kernel)), ?_, rfl,
    by simp [ctlLater], by simp [ctlLater], by decide +kernel⟩
  unfold ctlDeeds
  cases e : orun sessCtx oneSubnet (sessNode.controlled false) ctlEvs with
  | error x => rw [e] at h1; cases h1
  | ok x =>
    obtain ⟨m, rs, ds⟩ := x
    rw [e] at h1
    have a1 := Prod.mk.inj (Option.some.inj h1)
    have a2 := Prod.mk.inj a1.2
    refine ⟨m, ?_, a2.1⟩
    have := orun_run e
    rw [show rs = _ from a1.1] at this
    exact this

/-- With the role switched on again, the same messages start a second session. -/
example : ctlSeen (orun sessCtx oneSubnet (sessNode.controlled false)
    (ctlLater ++ .read :: .post (.enabled true) :: ctlEvs)) =
    some ([.role false, .badRequest, .toggled true false, .toggled false true, .toggled true false], 2, 8) := by
  decide +kernel

/-- Six slots later without a block the node takes itself to be syncing; after a restart no more. -/
example : ctlSeen (orun sessCtx oneSubnet (sessNode.controlled false)
    [.syncing 28000, .act .restart, .syncing 28000, .act (.timer 28000 false), .read,
      .act (.block (sgn (mkBlock 1 0 []))), .read, .act (.timer 4000 false), .read]) =
    some ([.syncing true 1 6 0, .syncing false 1 6 0], 0, 4) := by
  decide +kernel

end Witness
end Verif.Node
