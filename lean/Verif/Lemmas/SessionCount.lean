import Verif.Lemmas.SessionRun
/-!
# How many aggregates a session publishes, and when
-/
namespace Verif.Node
open Verif Verif.Db Verif.Sync Verif.Buffers Verif.Build

section
variable {c : VCtx} {u : Subnets}

theorem Later.sessionJobs {sync : Tracker} {s s' : Store} {slot : Nat} {js : List Job}
    {vals : List Validator} (h : Node.sessionJobs c sync s slot = .ok (js, vals, s')) : Later s s' := by
  unfold Node.sessionJobs at h
  split at h
  · cases h
  next p s1 e1 =>
  simp only at h
  split at h
  · cases h
  next st s2 e2 =>
  split at h
  · cases h
  · have := Except.ok.inj h
    simp only [Prod.mk.injEq] at this
    rw [← this.2.2]
    exact (ourProposer_out e1).2.trans (.headState e2)

/-- Some session id is about. -/
def AboutId (n : ANode) (pub : List Published) (i : Nat) : Prop :=
  (∃ w ∈ n.workers, w.id = i) ∨ (∃ p ∈ n.mail, p.id = i) ∨ ∃ p ∈ pub, p.id = i

/-- What session `i` published and may yet publish about votes with property `q`. -/
def amount (q : AttData → Bool) (i : Nat) (n : ANode) (pub : List Published) : Nat :=
  pub.countP (fun p => decide (p.id = i) && q p.data) +
  (n.mail.countP (fun p => decide (p.id = i) && q p.out.data) +
  (n.workers.map (fun w => if w.id = i then w.open.countP (fun j => q j.data) else 0)).sum)

theorem sum_zero {l : List Nat} (h : ∀ x ∈ l, x = 0) : l.sum = 0 := by
  induction l with
  | nil => rfl
  | cons a l ih =>
    rw [List.sum_cons, h a List.mem_cons_self, ih fun x hx => h x (List.mem_cons_of_mem _ hx)]

theorem amount_none {q : AttData → Bool} {i : Nat} {n : ANode} {pub : List Published}
    (h : ¬ AboutId n pub i) : amount q i n pub = 0 := by
  unfold amount
  have h1 : pub.countP (fun p => decide (p.id = i) && q p.data) = 0 :=
    List.countP_eq_zero.2 fun p hp hq => h (.inr (.inr ⟨p, hp, by simp at hq; exact hq.1⟩))
  have h2 : n.mail.countP (fun p => decide (p.id = i) && q p.out.data) = 0 :=
    List.countP_eq_zero.2 fun p hp hq => h (.inr (.inl ⟨p, hp, by simp at hq; exact hq.1⟩))
  have h3 : (n.workers.map
      (fun w => if w.id = i then w.open.countP (fun j => q j.data) else 0)).sum = 0 := by
    refine sum_zero fun x hx => ?_
    obtain ⟨w, hw, rfl⟩ := List.mem_map.1 hx
    exact if_neg fun e => h (.inl ⟨w, hw, e⟩)
  omega

theorem sum_set {α : Type} (f : α → Nat) : ∀ {l : List α} {k : Nat} {x y : α}, l[k]? = some x →
    ((l.set k y).map f).sum + f x = (l.map f).sum + f y
  | [], k, x, y, h => by simp at h
  | a :: l, 0, x, y, h => by
    obtain rfl : a = x := by simpa using h
    simp only [List.set_cons_zero, List.map_cons, List.sum_cons]
    omega
  | a :: l, k + 1, x, y, h => by
    have := sum_set f (l := l) (k := k) (x := x) (y := y) (by simpa using h)
    simp only [List.set_cons_succ, List.map_cons, List.sum_cons]
    omega

theorem sum_modify {α : Type} (f : α → Nat) (g : α → α) (h : ∀ x, f (g x) ≤ f x) :
    ∀ (l : List α) (k : Nat), ((l.modify k g).map f).sum ≤ (l.map f).sum
  | [], k => by simp
  | a :: l, 0 => by
    have := h a
    simp only [List.modify_zero_cons, List.map_cons, List.sum_cons]
    omega
  | a :: l, k + 1 => by
    have := sum_modify f g h l k
    simp only [List.modify_succ_cons, List.map_cons, List.sum_cons]
    omega

theorem cancel_sum (q : AttData → Bool) (i : Nat) (n : ANode) :
    (n.cancel.workers.map (fun w => if w.id = i then w.open.countP (fun j => q j.data) else 0)).sum ≤
    (n.workers.map (fun w => if w.id = i then w.open.countP (fun j => q j.data) else 0)).sum := by
  obtain ⟨k, e | e⟩ := cancel_workers n <;> rw [e]
  exact sum_modify _ (fun w : Running => { w with cancelled := true }) (fun x => Nat.le_refl _) _ _

theorem AboutId.cancel {n : ANode} {pub : List Published} {i : Nat} (h : AboutId n.cancel pub i) :
    AboutId n pub i := by
  rcases h with ⟨w, hw, rfl⟩ | h | h
  · obtain ⟨w0, h1, -, h2, -⟩ := cancel_mem hw
    exact .inl ⟨w0, h1, h2.symm⟩
  · rw [(cancel_node n).2.1] at h; exact .inr (.inl h)
  · exact .inr (.inr h)

/-- What an event other than a restart does to the sessions: none starts, or one does. -/
inductive Change (g : Nat) (n : ANode) (pub : List Published) (ev : AEvent) (n' : ANode)
    (p : List Published) : Prop
  | stay (hc : n'.current = n.current) (about : ∀ i, AboutId n' (pub ++ p) i → AboutId n pub i)
      (amt : ∀ q i, amount q i n' (pub ++ p) ≤ amount q i n pub)
      (cur : ∀ x ∈ p, n.current.map Prod.fst = some x.id) : Change g n pub ev n' p
  | fail (now : Nat) (ht : ev.time = some now) (hs : n.current.map Prod.fst ≠ some ((now - g) / 4000))
      (hp : p = []) (hc : n'.current = none) (about : ∀ i, AboutId n' pub i → AboutId n pub i)
      (amt : ∀ q i, amount q i n' pub ≤ amount q i n pub) : Change g n pub ev n' p
  | begun (now : Nat) (w : Running) (ht : ev.time = some now)
      (hs : n.current.map Prod.fst ≠ some ((now - g) / 4000)) (hp : p = [])
      (hc : n'.current.map Prod.fst = some ((now - g) / 4000))
      (about : ∀ i, AboutId n' pub i → AboutId n pub i ∨ i = (now - g) / 4000)
      (hw : w ∈ n'.workers) (len : w.open.length ≤ maxAggregationJobs)
      (amt : ∀ q i, amount q i n' pub ≤ amount q i n pub +
        if i = (now - g) / 4000 then w.open.countP (fun j => q j.data) else 0) : Change g n pub ev n' p

/-- The same sessions, another node. -/
theorem Change.congr {g : Nat} {n m n' : ANode} {pub p : List Published} {ev : AEvent}
    (h1 : m.current = n.current) (h2 : m.workers = n.workers) (h3 : m.mail = n.mail)
    (h : Change g m pub ev n' p) : Change g n pub ev n' p := by
  have ha : ∀ i, AboutId m pub i ↔ AboutId n pub i := by
    intro i; unfold AboutId; rw [h2, h3]
  have hm : ∀ q i, amount q i m pub = amount q i n pub := by
    intro q i; unfold amount; rw [h2, h3]
  cases h with
  | stay hc about amt cur =>
    exact .stay (hc.trans h1) (fun i h => (ha i).1 (about i h)) (fun q i => hm q i ▸ amt q i)
      (fun x hx => h1 ▸ cur x hx)
  | fail now ht hs hp hc about amt =>
    exact .fail now ht (h1 ▸ hs) hp hc (fun i h => (ha i).1 (about i h)) (fun q i => hm q i ▸ amt q i)
  | begun now w ht hs hp hc about hw len amt =>
    exact .begun now w ht (h1 ▸ hs) hp hc (fun i h => (about i h).imp_left (ha i).1) hw len
      (fun q i => hm q i ▸ amt q i)

theorem Change.same {g : Nat} {n n' : ANode} {pub : List Published} {ev : AEvent}
    (h1 : n'.current = n.current) (h2 : n'.workers = n.workers) (h3 : n'.mail = n.mail) :
    Change g n pub ev n' [] := by
  refine .stay h1 (fun i h => ?_) (fun q i => ?_) (fun x hx => by cases hx)
  · rw [List.append_nil] at h
    unfold AboutId at h ⊢
    rwa [h2, h3] at h
  · rw [List.append_nil]
    unfold amount
    rw [h2, h3]

theorem Change.start {g now : Nat} {n n' : ANode} {pub : List Published} {ev : AEvent}
    (ht : ev.time = some now) (hs : n.current.map Prod.fst ≠ some ((now - g) / 4000))
    (e : n.start c ((now - g) / 4000) = .ok n') : Change g n pub ev n' [] := by
  obtain ⟨js, vals, s, e1, -, e3, e4⟩ := start_cases e
  obtain ⟨-, -, -, -, -, hlen, -⟩ := sessionJobs_run e1
  rcases e4 with ⟨-, e4, e5⟩ | ⟨e4, e5⟩
  · refine .fail now ht hs rfl e4 (fun i h => ?_) (fun q i => ?_)
    · refine AboutId.cancel ?_
      unfold AboutId at h ⊢
      rwa [e5, e3, ← (cancel_node n).2.1] at h
    · have := cancel_sum q i n
      unfold amount
      rw [e5, e3]
      omega
  · refine .begun now ⟨(now - g) / 4000, s.genesisTime * 1000 + (now - g) / 4000 * msPerSlot +
      2 * msPerInterval, vals, js, none, false⟩ ht hs rfl (by rw [e4]; rfl) (fun i h => ?_)
      (by rw [e5]; exact List.mem_append_right _ (List.mem_singleton.2 rfl)) hlen (fun q i => ?_)
    · rcases h with ⟨w, hw, rfl⟩ | h | h
      · rw [e5] at hw
        rcases List.mem_append.1 hw with hw | hw
        · exact .inl (AboutId.cancel (.inl ⟨w, hw, rfl⟩))
        · obtain rfl := List.mem_singleton.1 hw
          exact .inr rfl
      · rw [e3] at h
        exact .inl (.inr (.inl h))
      · exact .inl (.inr (.inr h))
    · have := cancel_sum q i n
      unfold amount
      rw [e5, e3, List.map_append, List.sum_append, List.map_singleton, List.sum_singleton]
      simp only [eq_comm (a := i)]
      omega

theorem earlyStart_slot {en : Bool} {g now : Nat} {cur : Option Nat} {mg : Nat → Nat} {v k : Nat}
    {l : List Nat} {slot : Nat} (h : earlyStart en g now cur mg v k l = some slot) :
    slot = (now - g) / 4000 ∧ cur ≠ some slot := by
  unfold earlyStart at h
  simp only at h
  repeat' split at h
  all_goals first | (cases h; done) | skip
  next h1 _ => cases h; exact ⟨rfl, h1⟩

theorem Change.early {g now : Nat} {n n' : ANode} {pub : List Published} {ev : AEvent} {agg : Bool}
    (ht : ev.time = some now) (hg : g = n.node.actor.store.genesisTime * 1000)
    (e : n.early c u now agg = .ok n') : Change g n pub ev n' [] := by
  unfold ANode.early at e
  split at e
  · cases e; exact .same rfl rfl rfl
  split at e
  · cases e
  next st s e1 =>
  have L : Later _ s := .headState e1
  simp only at e
  rw [L.genesis, ← hg] at e
  split at e
  · cases e; exact .same rfl rfl rfl
  next slot hs =>
    obtain ⟨rfl, h2⟩ := earlyStart_slot hs
    exact .congr (m := { n with node := { n.node with actor := { n.node.actor with store := s } } })
      rfl rfl rfl (.start ht h2 e)

theorem step_change {g : Nat} {n n' : ANode} {ev : AEvent} {l : List Signed} {pub p : List Published}
    (hg : g = n.node.actor.store.genesisTime * 1000) (hr : ev ≠ .restart)
    (e : n.step c u ev = .ok (n', l, p)) : Change g n pub ev n' p := by
  have outer : ∀ {x : Event}, (n.other c x).map
      (fun n => (n, ([] : List Signed), ([] : List Published))) = .ok (n', l, p) →
      Change g n pub ev n' p := by
    intro x e
    cases e1 : n.other c x with
    | error k => rw [e1] at e; cases e
    | ok n1 =>
      rw [e1] at e
      cases e
      obtain ⟨a, f, -, -, e3, e4, e5⟩ := other_cases e1
      exact .same e3 e4 e5
  cases ev with
  | restart => exact absurd rfl hr
  | block sb => exact outer e
  | aggregate d a => exact outer e
  | timer now agg =>
    unfold ANode.step at e
    simp only at e
    split at e
    · cases e
    next m l' e1 =>
    split at e
    · cases e
    next n2 e2 =>
    cases e
    unfold ANode.tickSession at e2
    simp only at e2
    rw [← hg] at e2
    split at e2
    · cases e2; exact .same rfl rfl rfl
    split at e2
    next h =>
      exact .congr (m := { n with node := m }) rfl rfl rfl (.start (c := c) (now := now) rfl h.2.2 e2)
    · cases e2; exact .same rfl rfl rfl
  | attestation v d sig now agg =>
    unfold ANode.step at e
    simp only at e
    split at e
    · cases e
    next n1 e1 =>
    obtain ⟨a, f, k1, k2, e3, e4, e5⟩ := other_cases e1
    have L : Later n.node.actor.store n1.node.actor.store := by rw [k2]; exact .actorStep k1
    split at e
    · cases e2 : n1.early c u now agg with
      | error k => rw [e2] at e; cases e
      | ok n2 =>
        rw [e2] at e
        cases e
        exact (Change.early rfl (by rw [L.genesis]; exact hg) e2).congr e3 e4 e5
    · cases e
      exact .same e3 e4 e5
  | check now agg =>
    unfold ANode.step at e
    simp only at e
    cases e2 : n.early c u now agg with
    | error k => rw [e2] at e; cases e
    | ok n2 =>
      rw [e2] at e
      cases e
      exact .early rfl hg e2
  | begin k =>
    unfold ANode.step at e
    cases e
    refine .stay rfl (fun i h => ?_) (fun q i => ?_) (fun x hx => by cases hx)
    · rw [List.append_nil] at h
      rcases h with ⟨w, hw, rfl⟩ | h
      · rcases mem_modify hw with hw | ⟨y, h1, -, rfl⟩
        · exact .inl ⟨w, hw, rfl⟩
        · exact .inl ⟨y, h1, (next_cases y).2.1.symm⟩
      · exact .inr h
    · rw [List.append_nil]
      unfold amount
      have := sum_modify (fun w : Running => if w.id = i then w.open.countP (fun j => q j.data) else 0)
        Running.next (fun x => by
          obtain ⟨-, h2, -, h4⟩ := next_cases x
          simp only [h2]
          split
          · exact h4.countP_le
          · exact Nat.le_refl _) n.workers k
      simp only
      omega
  | finish k now =>
    unfold ANode.step at e
    simp only at e
    split at e
    · cases e; exact .same rfl rfl rfl
    next w hw =>
    cases e
    obtain ⟨-, d2, -, d5⟩ := done_cases c.X w now
    refine .stay rfl (fun i h => ?_) (fun q i => ?_) (fun x hx => by cases hx)
    · rw [List.append_nil] at h
      rcases h with ⟨x, hx, rfl⟩ | ⟨x, hx, rfl⟩ | h
      · rcases mem_set_cases hx with hx | rfl
        · exact .inl ⟨x, hx, rfl⟩
        · exact .inl ⟨w, List.mem_of_getElem? hw, d2.symm⟩
      · rcases List.mem_append.1 hx with hx | hx
        · exact .inr (.inl ⟨x, hx, rfl⟩)
        · rcases d5 with ⟨d5, -⟩ | ⟨j, o, -, -, d5⟩ <;> rw [d5] at hx
          · cases hx
          · obtain rfl := List.mem_singleton.1 hx
            exact .inl ⟨w, List.mem_of_getElem? hw, rfl⟩
      · exact .inr (.inr h)
    · rw [List.append_nil]
      unfold amount
      have := sum_set (fun w : Running => if w.id = i then w.open.countP (fun j => q j.data) else 0)
        (y := (w.done c.X now).1) hw
      simp only [d2] at this
      simp only [List.countP_append]
      rcases d5 with ⟨d5, d6⟩ | ⟨j, o, d6, d7, d5⟩
      · rw [d5]
        have h2 := d6.countP_le (p := fun j => q j.data)
        simp only [List.countP_nil]
        split at this <;> omega
      · rw [d5]
        have hd : o.data = j.data := (C46_published _ _ _ d7).1
        rw [d6, List.countP_cons] at this
        simp only [List.countP_cons, List.countP_nil, hd]
        by_cases hi : w.id = i
        · rw [if_pos hi, if_pos hi] at this
          simp only [hi, decide_true, Bool.true_and]
          omega
        · rw [if_neg hi, if_neg hi] at this
          simp only [hi, decide_false, Bool.false_and, Bool.false_eq_true, if_false]
          omega
  | deliver k now =>
    unfold ANode.step at e
    simp only at e
    split at e
    · cases e; exact .same rfl rfl rfl
    next q hq =>
    split at e
    · cases e; exact .same rfl rfl rfl
    split at e
    · cases e
    next n1 l1 e1 =>
    cases e
    have hmem := List.mem_of_getElem? hq
    have cnt : ∀ (f : Produced → Bool), (n.mail.eraseIdx k).countP f + (if f q then 1 else 0) =
        n.mail.countP f := by
      intro f
      have hk : k < n.mail.length := (List.getElem?_eq_some_iff.1 hq).1
      have hqk : n.mail[k] = q := (List.getElem?_eq_some_iff.1 hq).2
      have p1 : (q :: n.mail.eraseIdx k).Perm n.mail := by
        rw [← hqk]; exact List.getElem_cons_eraseIdx_perm hk
      rw [← p1.countP_eq f, List.countP_cons]
    unfold ANode.take at e1
    split at e1
    · cases e1
      refine .stay rfl (fun i h => ?_) (fun f i => ?_) (fun x hx => by cases hx)
      · rw [List.append_nil] at h
        rcases h with h | ⟨x, hx, rfl⟩ | h
        · exact .inl h
        · exact .inr (.inl ⟨x, List.mem_of_mem_eraseIdx hx, rfl⟩)
        · exact .inr (.inr h)
      · rw [List.append_nil]
        have := cnt (fun p => decide (p.id = i) && f p.out.data)
        unfold amount
        simp only
        omega
    next hcur =>
    split at e1
    · cases e1
    next n2 e2 =>
    cases e1
    obtain ⟨a, f, s1, s2, s3, s4, s5⟩ := other_cases e2
    refine .stay s3 (fun i h => ?_) (fun f i => ?_) (fun x hx => ?_)
    · rcases h with h | ⟨x, hx, rfl⟩ | ⟨x, hx, rfl⟩
      · rw [s4] at h; exact .inl h
      · rw [s5] at hx
        exact .inr (.inl ⟨x, List.mem_of_mem_eraseIdx hx, rfl⟩)
      · rcases List.mem_append.1 hx with hx | hx
        · exact .inr (.inr ⟨x, hx, rfl⟩)
        · obtain rfl := List.mem_singleton.1 hx
          exact .inr (.inl ⟨q, hmem, rfl⟩)
    · have := cnt (fun p => decide (p.id = i) && f p.out.data)
      unfold amount
      rw [s4, s5]
      simp only [List.countP_append, List.countP_cons, List.countP_nil]
      omega
    · obtain rfl := List.mem_singleton.1 hx
      simpa using hcur
  | deadline id =>
    unfold ANode.step at e
    cases e
    split
    · refine .stay (cancel_node n).2.2 (fun i h => ?_) (fun q i => ?_) (fun x hx => by cases hx)
      · rw [List.append_nil] at h
        exact h.cancel
      · rw [List.append_nil]
        have := cancel_sum q i n
        unfold amount
        rw [(cancel_node n).2.1]
        omega
    · exact .same rfl rfl rfl

end

end Verif.Node
