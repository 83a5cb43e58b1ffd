import Verif.Spec.Late
import Verif.Props.C98_Fleet
/-!
# Running three nodes on a delivery plan

Witness material: an executable network of three nodes, and hash functions without collisions whose
values stay short enough to compute with.
-/
namespace Verif.Node
open Verif Verif.Db Verif.Sync Verif.Buffers

namespace LateRun
open Verif.Witness Verif.Node.Witness

/-! ## Hash functions -/

/-- An injective pairing that is short when `b` is. -/
def glue (a b : Nat) : Nat :=
  2 ^ (b.log2 + 1) * (2 * (a * 2 ^ (b.log2 + 1) + b) + 1)

theorem odd_part {s s' x y : Nat} (h : 2 ^ s * (2 * x + 1) = 2 ^ s' * (2 * y + 1)) :
    s = s' ∧ x = y := by
  induction s generalizing s' with
  | zero =>
    cases s' with
    | zero => exact ⟨rfl, by omega⟩
    | succ s' =>
      rw [Nat.pow_succ, Nat.mul_comm (2 ^ s') 2, Nat.mul_assoc] at h
      generalize 2 ^ s' * (2 * y + 1) = z at h
      omega
  | succ s ih =>
    cases s' with
    | zero =>
      rw [Nat.pow_succ, Nat.mul_comm (2 ^ s) 2, Nat.mul_assoc] at h
      generalize 2 ^ s * (2 * x + 1) = z at h
      omega
    | succ s' =>
      rw [Nat.pow_succ, Nat.mul_comm (2 ^ s) 2, Nat.mul_assoc, Nat.pow_succ,
        Nat.mul_comm (2 ^ s') 2, Nat.mul_assoc] at h
      obtain ⟨h1, h2⟩ := ih (s' := s') (by omega)
      exact ⟨by omega, h2⟩

theorem glue_inj {a b a' b' : Nat} (h : glue a b = glue a' b') : a = a' ∧ b = b' := by
  unfold glue at h
  obtain ⟨h1, h2⟩ := odd_part h
  rw [← h1] at h2
  have l1 : b < 2 ^ (b.log2 + 1) := Nat.lt_log2_self
  have l2 : b' < 2 ^ (b.log2 + 1) := by rw [h1]; exact Nat.lt_log2_self
  generalize 2 ^ (b.log2 + 1) = c at *
  have e1 := congrArg (· / c) h2
  have e2 := congrArg (· % c) h2
  simp only [Nat.mul_add_mod_self_right, Nat.mod_eq_of_lt l1, Nat.mod_eq_of_lt l2] at e2
  refine ⟨?_, e2⟩
  rw [e2] at h2
  have : a * c = a' * c := by omega
  exact Nat.eq_of_mul_eq_mul_right (by omega) this

theorem lt_glue (a b : Nat) : a < glue a b := by
  unfold glue
  have h1 : 1 ≤ 2 ^ (b.log2 + 1) := Nat.one_le_two_pow
  generalize 2 ^ (b.log2 + 1) = c at *
  have h2 : a ≤ a * c := Nat.le_mul_of_pos_right _ h1
  have h3 : 2 * (a * c + b) + 1 ≤ c * (2 * (a * c + b) + 1) := Nat.le_mul_of_pos_left _ h1
  omega

/-- Hash functions: the root of a block names its parent, slot, proposer and the two other roots. -/
def lateHash : Hash where
  state _ := 1
  header h := glue h.parentRoot
    (Nat.pair h.slot (Nat.pair h.proposerIndex (Nat.pair h.stateRoot h.bodyRoot)))
  body l := l.length + 1
  attData d := glue (glue (glue (glue (glue (glue d.head.root d.head.slot) d.slot) d.target.root)
    d.target.slot) d.source.root) d.source.slot

theorem lateHash_ideal : Ideal lateHash where
  headerNZ h := Nat.ne_of_gt (Nat.lt_of_le_of_lt (Nat.zero_le _) (lt_glue _ _))
  stateNZ _ := Nat.one_ne_zero
  headers := by
    rintro ⟨⟩ ⟨⟩ h
    obtain ⟨h1, h2⟩ := glue_inj h
    simp only [Nat.pair_eq_pair] at h1 h2
    simp [h1, h2]
  acyclic := ⟨id, fun h => lt_glue _ _⟩
  votes := by
    rintro ⟨a, ⟨⟩, ⟨⟩, ⟨⟩⟩ ⟨b, ⟨⟩, ⟨⟩, ⟨⟩⟩ h
    obtain ⟨h, h1⟩ := glue_inj h
    obtain ⟨h, h2⟩ := glue_inj h
    obtain ⟨h, h3⟩ := glue_inj h
    obtain ⟨h, h4⟩ := glue_inj h
    obtain ⟨h, h5⟩ := glue_inj h
    obtain ⟨h, h6⟩ := glue_inj h
    simp only at h h1 h2 h3 h4 h5 h6
    simp [h, h1, h2, h3, h4, h5, h6]

/-! ## The nodes -/

/-- Three nodes with a validator each, which do everything a node does. -/
def site (agg : Fin 3 → Bool) : Fin 3 → Site := fun i =>
  { order := idealCtx.order
    recovers := fun _ _ => true
    ord := idealCtx.ord
    config := idealCtx.config
    ids := [i.val]
    sign := idealCtx.sign
    signBlock := idealCtx.signBlock
    aggregator := agg i }

theorem site_manned {agg : Fin 3 → Bool} (h : ∃ i, agg i = true) :
    Manned idealCtx.X lateHash (site agg) wVals where
  able i := by
    have Q : Equipped { soloCtx [2, 0, 1] with H := lateHash } wVals :=
      soloCtx_equipped (ids := [2, 0, 1]) (vals := wVals) (by decide) (by decide)
        (by intro v; simp [wVals]; omega) (by decide)
    have hi : ∀ v ∈ [i.val], v ∈ idealCtx.ids := by
      intro v hv
      rw [List.mem_singleton] at hv
      subst hv
      exact Q.all _ i.isLt
    exact ⟨Q.complete, Q.live, Q.keys, fun v hv => Q.mine v (hi v hv), List.nodup_singleton _,
      fun v hv => Q.votes v (hi v hv), fun v hv => Q.signs v (hi v hv), fun v hv => Q.can v (hi v hv),
      Q.ord, Q.merges, Q.room⟩
  all v hv := ⟨⟨v, hv⟩, List.mem_singleton_self _⟩
  one v i j hi hj := by
    have hi : v ∈ [i.val] := hi
    have hj : v ∈ [j.val] := hj
    rw [List.mem_singleton] at hi hj
    exact Fin.ext (hi.symm.trans hj)
  aggregates := h

/-- Something for each node. -/
structure Tri (α : Type) where
  a : α
  b : α
  c : α

def Tri.get {α : Type} (x : Tri α) : Fin 3 → α
  | 0 => x.a
  | 1 => x.b
  | 2 => x.c

/-- For every node, unless it fails for one. -/
def tri {α : Type} (f : Fin 3 → P α) : P (Tri α) :=
  match f 0 with
  | .error e => .error e
  | .ok a =>
    match f 1 with
    | .error e => .error e
    | .ok b =>
      match f 2 with
      | .error e => .error e
      | .ok c => .ok ⟨a, b, c⟩

theorem tri_get {α : Type} {f : Fin 3 → P α} {x : Tri α} (h : tri f = .ok x) :
    ∀ i, f i = .ok (x.get i) := by
  unfold tri at h
  split at h
  · cases h
  next e0 =>
  split at h
  · cases h
  next e1 =>
  split at h
  · cases h
  next e2 =>
  cases h
  intro i
  match i with
  | 0 => exact e0
  | 1 => exact e1
  | 2 => exact e2

def Tri.map {α β : Type} (f : α → β) (x : Tri α) : Tri β := ⟨f x.a, f x.b, f x.c⟩

theorem Tri.get_map {α β : Type} (f : α → β) (x : Tri α) (i : Fin 3) :
    (x.map f).get i = f (x.get i) := by
  match i with
  | 0 => rfl
  | 1 => rfl
  | 2 => rfl

def Tri.app {α : Type} (x y : Tri (List α)) : Tri (List α) := ⟨x.a ++ y.a, x.b ++ y.b, x.c ++ y.c⟩

theorem Tri.get_app {α : Type} (x y : Tri (List α)) : (x.app y).get = fun i => x.get i ++ y.get i := by
  funext i
  match i with
  | 0 => rfl
  | 1 => rfl
  | 2 => rfl

/-- A published message: the block of a slot, the vote of a validator in a slot, the aggregates of a
node for votes of a slot. -/
inductive Desc
  | block (s : Nat)
  | vote (v s : Nat)
  | agg (i : Fin 3) (s : Nat)

/-- The block of slot `s`, once it is published. -/
def findBlock (k s : Nat) : Signed → Option Event
  | .block _ k' _ (some (sb, .ok ())) => if k' = s ∧ 5 * k' ≤ k then some (.block sb) else none
  | _ => none

/-- The vote of `v` in slot `s`. -/
def findVote (agg : Bool) (v s : Nat) : Signed → Option Event
  | .vote w d (some sig) => if w = v ∧ d.slot = s then some (.attestation w d sig agg) else none
  | _ => none

/-- The messages. -/
def find (k : Nat) (L : Tri (List Signed)) (O : Tri (List (AttData × Agg))) (agg : Bool) :
    Desc → List Event
  | .block s => L.a.filterMap (findBlock k s) ++ L.b.filterMap (findBlock k s) ++
      L.c.filterMap (findBlock k s)
  | .vote v s => L.a.filterMap (findVote agg v s) ++ L.b.filterMap (findVote agg v s) ++
      L.c.filterMap (findVote agg v s)
  | .agg i s => (O.get i).filterMap (fun x => if x.1.slot = s then some (.aggregate x.1 x.2) else none)

theorem findBlock_sent {m : Site} {k s : Nat} {L : Tri (List Signed)}
    {O : Fin 3 → List (AttData × Agg)} (i : Fin 3) {x : Event}
    (h : x ∈ (L.get i).filterMap (findBlock k s)) : Sent m k L.get O x := by
  obtain ⟨y, hy, hx⟩ := List.mem_filterMap.1 h
  unfold findBlock at hx
  split at hx
  · split at hx
    next hk => cases hx; exact .block hk.2 hy
    · cases hx
  · cases hx

theorem findVote_sent {m : Site} {k v s : Nat} {L : Tri (List Signed)}
    {O : Fin 3 → List (AttData × Agg)} (i : Fin 3) {x : Event}
    (h : x ∈ (L.get i).filterMap (findVote m.aggregator v s)) : Sent m k L.get O x := by
  obtain ⟨y, hy, hx⟩ := List.mem_filterMap.1 h
  unfold findVote at hx
  split at hx
  · split at hx
    · cases hx; exact .vote hy
    · cases hx
  · cases hx

theorem find_sent {m : Site} {k : Nat} {L : Tri (List Signed)} {O : Tri (List (AttData × Agg))}
    {d : Desc} {x : Event} (h : x ∈ find k L O m.aggregator d) : Sent m k L.get O.get x := by
  cases d with
  | block s =>
    simp only [find, List.mem_append] at h
    rcases h with (h | h) | h
    · exact findBlock_sent 0 h
    · exact findBlock_sent 1 h
    · exact findBlock_sent 2 h
  | vote v s =>
    simp only [find, List.mem_append] at h
    rcases h with (h | h) | h
    · exact findVote_sent 0 h
    · exact findVote_sent 1 h
    · exact findVote_sent 2 h
  | agg i s =>
    obtain ⟨y, hy, hx⟩ := List.mem_filterMap.1 h
    split at hx
    · cases hx; exact .aggregate (j := i) hy
    · cases hx

/-- The network. -/
structure Net where
  nodes : Tri VNode
  signed : Tri (List Signed)
  aggs : Tri (List (AttData × Agg))

section
variable (agg : Fin 3 → Bool)

/-- One interval: timers, sessions, then the messages of the plan. -/
def Net.step (k : Nat) (ds : Fin 3 → List Desc) (S : Net) : P Net :=
  match tri (fun i => (S.nodes.get i).tick ((site agg i).ctx idealCtx.X lateHash) (800 * k)
      (agg i)) with
  | .error e => .error e
  | .ok r =>
  match tri (fun i => if k % 5 = 2 ∧ agg i = true
      then (r.get i).1.session ((site agg i).ctx idealCtx.X lateHash) (k / 5)
      else .ok ((r.get i).1, [])) with
  | .error e => .error e
  | .ok q =>
  let L := S.signed.app (r.map Prod.snd)
  let O := S.aggs.app (q.map Prod.snd)
  match tri (fun i => (q.get i).1.hear ((site agg i).ctx idealCtx.X lateHash)
      ((ds i).flatMap (find k L O (agg i)))) with
  | .error e => .error e
  | .ok N => .ok ⟨N, L, O⟩

/-- The start. -/
def Net.init : P Net :=
  match tri (fun i => Actor.init ((site agg i).ctx idealCtx.X lateHash).ctx
      (State.fromGenesis lateHash 0 wVals) (some [])) with
  | .error e => .error e
  | .ok a => .ok ⟨a.map (fun a => ⟨a, Tracker.new true⟩), ⟨[], [], []⟩, ⟨[], [], []⟩⟩

/-- `k` intervals of a plan. -/
def run (ds : Nat → Fin 3 → List Desc) : Nat → P Net
  | 0 => Net.init agg
  | k + 1 =>
    match run ds k with
    | .error e => .error e
    | .ok S => S.step agg k (ds k)

variable {agg}

theorem step_late {k : Nat} {ds : Fin 3 → List Desc} {S S' : Net}
    (h : Late idealCtx.X lateHash (site agg) 0 wVals k S.nodes.get S.signed.get S.aggs.get)
    (hs : S.step agg k ds = .ok S') :
    Late idealCtx.X lateHash (site agg) 0 wVals (k + 1) S'.nodes.get S'.signed.get S'.aggs.get := by
  unfold Net.step at hs
  split at hs
  · cases hs
  next r hr =>
  split at hs
  · cases hs
  next q hq =>
  simp only at hs
  split at hs
  · cases hs
  next N hN =>
  cases hs
  have hr := tri_get hr
  have hq := tri_get hq
  have hN := tri_get hN
  simp only
  rw [Tri.get_app, Tri.get_app]
  refine .next (now := fun _ => 800 * k) (N1 := fun i => (r.get i).1) (N2 := fun i => (q.get i).1)
    (e := fun i => (ds i).flatMap (find k (S.signed.app (r.map Prod.snd))
      (S.aggs.app (q.map Prod.snd)) (agg i))) h (fun i => by omega) ?_ ?_ ?_ ?_
  · intro i
    rw [Tri.get_map]
    exact hr i
  · split
    next hk =>
      intro i
      have := hq i
      rw [Tri.get_map]
      show if agg i = true then _ else _
      split
      next ha => rw [if_pos ⟨hk, ha⟩] at this; exact this
      next ha =>
        rw [if_neg (fun hc => ha hc.2)] at this
        have this := Except.ok.inj this
        exact ⟨by simp only [← this], by rw [← this]⟩
    next hk =>
      have : ∀ i, q.get i = ((r.get i).1, []) := by
        intro i
        have := hq i
        rw [if_neg (fun hc => hk hc.1)] at this
        exact (Except.ok.inj this).symm
      constructor
      · funext i; rw [this i]
      · funext i; rw [Tri.get_map, this i]
  · intro i x hx
    obtain ⟨d, -, hx⟩ := List.mem_flatMap.1 hx
    have := find_sent (m := site agg i) hx
    rw [Tri.get_app, Tri.get_app] at this
    exact this
  · exact hN

theorem run_late {ds : Nat → Fin 3 → List Desc} : ∀ {k : Nat} {S : Net}, run agg ds k = .ok S →
    Late idealCtx.X lateHash (site agg) 0 wVals k S.nodes.get S.signed.get S.aggs.get
  | 0, S, h => by
    unfold run Net.init at h
    split at h
    · cases h
    next a ha =>
    cases h
    have ha := tri_get ha
    have e1 : (a.map (fun a => (⟨a, Tracker.new true⟩ : VNode))).get =
        fun i => ⟨a.get i, Tracker.new true⟩ := by funext i; rw [Tri.get_map]
    have e2 : (⟨[], [], []⟩ : Tri (List Signed)).get = fun _ => [] := by
      funext i
      match i with
      | 0 => rfl
      | 1 => rfl
      | 2 => rfl
    have e3 : (⟨[], [], []⟩ : Tri (List (AttData × Agg))).get = fun _ => [] := by
      funext i
      match i with
      | 0 => rfl
      | 1 => rfl
      | 2 => rfl
    rw [e1, e2, e3]
    exact .start (fun _ => true) ha
  | k + 1, S, h => by
    unfold run at h
    split at h
    · cases h
    next e => exact step_late (run_late e) h

/-- Reading off the end of a run. -/
theorem run_check {ds : Nat → Fin 3 → List Desc} {k : Nat} {p : Net → Bool}
    (h : (match run agg ds k with | .ok S => p S | .error _ => false) = true) :
    ∃ S, run agg ds k = .ok S ∧ p S = true := by
  split at h
  next S e => exact ⟨S, e, h⟩
  · cases h

/-! ## Ancestors -/

/-- The header of a block that was made. -/
def headerOf : Signed → Option Header
  | .block _ _ _ (some (sb, _)) => some (sb.block.header lateHash)
  | _ => none

/-- All headers. -/
def Net.headers (S : Net) : List Header :=
  genesisHeader lateHash (State.fromGenesis lateHash 0 wVals) ::
    (S.signed.a.filterMap headerOf ++ S.signed.b.filterMap headerOf ++ S.signed.c.filterMap headerOf)

theorem made_mem {S : Net} {i : Fin 3} {h : Header}
    (hm : MadeHeader lateHash (State.fromGenesis lateHash 0 wVals) (S.signed.get i) h) :
    h ∈ S.headers := by
  rcases hm with rfl | ⟨sb, ⟨v, s, r, x, hx⟩, rfl⟩
  · exact List.mem_cons_self
  · refine List.mem_cons_of_mem _ ?_
    have : ∀ l : List Signed, Signed.block v s r (some (sb, x)) ∈ l →
        sb.block.header lateHash ∈ l.filterMap headerOf :=
      fun l hl => List.mem_filterMap.2 ⟨_, hl, rfl⟩
    simp only [List.mem_append]
    match i, hx with
    | 0, hx => exact .inl (.inl (this _ hx))
    | 1, hx => exact .inl (.inr (this _ hx))
    | 2, hx => exact .inr (this _ hx)

theorem mem_made {S : Net} {h : Header} (hm : h ∈ S.headers) :
    ∃ i, MadeHeader lateHash (State.fromGenesis lateHash 0 wVals) (S.signed.get i) h := by
  have key : ∀ l : List Signed, h ∈ l.filterMap headerOf →
      MadeHeader lateHash (State.fromGenesis lateHash 0 wVals) l h := by
    intro l hl
    obtain ⟨y, hy, hx⟩ := List.mem_filterMap.1 hl
    unfold headerOf at hx
    split at hx
    next v s r sb x =>
      cases hx
      exact .inr ⟨sb, ⟨v, s, r, x, hy⟩, rfl⟩
    · cases hx
  rcases List.mem_cons.1 hm with rfl | hm
  · exact ⟨0, .inl rfl⟩
  · simp only [List.mem_append] at hm
    rcases hm with (hm | hm) | hm
    · exact ⟨0, key _ hm⟩
    · exact ⟨1, key _ hm⟩
    · exact ⟨2, key _ hm⟩

/-- The roots found going up from `r`, `n` steps. -/
def ancestors (hs : List (Root × Root)) : Nat → Root → List Root
  | 0, r => [r]
  | n + 1, r =>
    match hs.find? (fun h => decide (h.1 = r)) with
    | none => [r]
    | some h => r :: ancestors hs n h.2

/-- Roots with the roots of the parents. -/
def Net.links (S : Net) : List (Root × Root) :=
  S.headers.map (fun h => (lateHash.header h, h.parentRoot))

/-- `a` is not found going up from `b`, and the search was complete. -/
def apart (hs : List (Root × Root)) (a b : Root) : Bool :=
  let C := ancestors hs hs.length b
  C.contains b && !C.contains a && hs.all (fun h => !C.contains h.1 || C.contains h.2)

theorem apart_sound {S : Net} {a b : Root} (h : apart S.links a b = true) :
    ¬ Under lateHash (State.fromGenesis lateHash 0 wVals) S.signed.get a b := by
  unfold apart at h
  simp only [Bool.and_eq_true, Bool.not_eq_true', List.all_eq_true, Bool.or_eq_true] at h
  obtain ⟨⟨h1, h2⟩, h3⟩ := h
  generalize ancestors S.links S.links.length b = C at *
  have key : ∀ {c : Root}, Under lateHash (State.fromGenesis lateHash 0 wVals) S.signed.get a c →
      C.contains c = true → False := by
    intro c hu
    induction hu with
    | self => intro hc; rw [h2] at hc; cases hc
    | @up h i made parent ih =>
      intro hc
      rcases h3 (lateHash.header h, h.parentRoot)
        (List.mem_map.2 ⟨h, made_mem made, rfl⟩) with h4 | h4
      · simp only at h4
        rw [h4] at hc; cases hc
      · exact ih h4
  exact fun hu => key hu h1

theorem ancestors_sound {S : Net} {a : Root} : ∀ {n : Nat} {r : Root},
    a ∈ ancestors S.links n r →
    Under lateHash (State.fromGenesis lateHash 0 wVals) S.signed.get a r
  | 0, r, h => by
    rw [ancestors, List.mem_singleton] at h
    subst h
    exact .self
  | n + 1, r, h => by
    unfold ancestors at h
    split at h
    · rw [List.mem_singleton] at h
      subst h
      exact .self
    next x hx =>
      rcases List.mem_cons.1 h with rfl | h
      · exact .self
      · have hm := List.mem_of_find?_eq_some hx
        have hr := List.find?_some hx
        simp only [decide_eq_true_eq] at hr
        obtain ⟨y, hy, rfl⟩ := List.mem_map.1 hm
        obtain ⟨i, hi⟩ := mem_made hy
        simp only at hr h
        rw [← hr]
        exact .up i hi (ancestors_sound h)

end
end LateRun
end Verif.Node
