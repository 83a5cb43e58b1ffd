import Verif.Props.C96_Keys
import Verif.Lemmas.Gossip
/-!
# C97: a node has the keys assigned to it
-/
namespace Verif.Keys
open Verif

def Role.word : Role → List Char
  | .attester => "attester".toList
  | .proposer => "proposer".toList

def Role.other : Role → Role
  | .attester => .proposer
  | .proposer => .attester

/-- The file name names this use of the key, and not the other. -/
def IsRole (f : File) (r : Role) : Prop :=
  ∃ n, f.name = some n ∧ r.word <:+: n ∧ ¬ r.other.word <:+: n

/-- The entries for one key of a validator, in order. -/
noncomputable def entries (es : List Entry) (v : Nat) (r : Role) : List Entry :=
  open Classical in es.filter (fun e => decide (e.index = v ∧ IsRole e.file r))

theorem classify_ok {f : File} {r : Role} : classify f = .ok r ↔ IsRole f r := by
  have key : ∀ (A B n : List Char),
      ((match contains n A, contains n B with
        | true, false => .ok .attester
        | false, true => .ok .proposer
        | false, false => .error .badName
        | true, true => .error .ambiguousName : Except LoadErr Role) = .ok r ↔
      match r with
      | .attester => A <:+: n ∧ ¬ B <:+: n
      | .proposer => B <:+: n ∧ ¬ A <:+: n) := by
    intro A B n
    unfold contains
    by_cases h1 : A <:+: n <;> by_cases h2 : B <:+: n <;> cases r <;> simp [h1, h2]
  unfold classify IsRole
  cases hn : f.name with
  | none => simp
  | some n =>
    refine (key _ _ n).trans ?_
    cases r <;> simp only [Option.some.injEq, exists_eq_left'] <;> exact Iff.rfl

theorem isRole_unique {f : File} {r r' : Role} (h : IsRole f r) (h' : IsRole f r') : r = r' := by
  have := (classify_ok.2 h).symm.trans (classify_ok.2 h')
  exact Except.ok.inj this

theorem mem_entries {es : List Entry} {v : Nat} {r : Role} {e : Entry} :
    e ∈ entries es v r ↔ e ∈ es ∧ e.index = v ∧ IsRole e.file r := by
  simp [entries]

theorem entries_snoc (es : List Entry) (e : Entry) {r0 : Role} (h0 : IsRole e.file r0) (v : Nat)
    (r : Role) : entries (es ++ [e]) v r =
      if e.index = v ∧ r0 = r then entries es v r ++ [e] else entries es v r := by
  unfold entries
  rw [List.filter_append]
  by_cases h : e.index = v ∧ r0 = r
  · rw [if_pos h]
    obtain ⟨h1, rfl⟩ := h
    simp [h1, h0]
  · rw [if_neg h]
    have : ¬ (e.index = v ∧ IsRole e.file r) := fun hh => h ⟨hh.1, isRole_unique h0 hh.2⟩
    simp [this]

/-- The map collects the entries read so far. -/
structure Holds (resolve : Nat → Nat) (es : List Entry) (g : Buffers.BMap RoleSlots) : Prop where
  sorted : (g.map Prod.fst).Pairwise (· < ·)
  named : ∀ e ∈ es, ∃ r, IsRole e.file r
  key : ∀ v, (AMap.get? g v).isSome ↔ ∃ e ∈ es, e.index = v
  slot : ∀ v r, (entries es v r).length ≤ 1 ∧
    ((AMap.get? g v).getD ⟨none, none⟩).get r =
      ((entries es v r).head?).map (fun e => resolve e.file.path)

theorem get_set (s : RoleSlots) (p : Nat) (r r' : Role) :
    (s.set p r).get r' = if r = r' then some p else s.get r' := by
  cases r <;> cases r' <;> rfl

theorem Holds.snoc {resolve : Nat → Nat} {es : List Entry} {g : Buffers.BMap RoleSlots}
    (h : Holds resolve es g) {e : Entry} {r : Role} (hr : IsRole e.file r)
    (hn : (((AMap.get? g e.index).getD ⟨none, none⟩).get r).isSome = false) :
    Holds resolve (es ++ [e]) (Buffers.BMap.insert e.index
      (((AMap.get? g e.index).getD ⟨none, none⟩).set (resolve e.file.path) r) g) := by
  refine ⟨Buffers.bmap_sorted _ _ _ h.sorted, ?_, ?_, ?_⟩
  · intro x hx
    rcases List.mem_append.1 hx with hx | hx
    · exact h.named x hx
    · rw [List.mem_singleton] at hx
      subst hx
      exact ⟨r, hr⟩
  · intro v
    rw [Buffers.bmap_get? _ _ _ _ h.sorted]
    by_cases hv : e.index = v
    · rw [if_pos hv]
      simp only [Option.isSome_some, true_iff]
      exact ⟨e, List.mem_append_right _ (List.mem_singleton_self _), hv⟩
    · rw [if_neg hv, h.key]
      constructor
      · rintro ⟨x, hx, rfl⟩
        exact ⟨x, List.mem_append_left _ hx, rfl⟩
      · rintro ⟨x, hx, rfl⟩
        rcases List.mem_append.1 hx with hx | hx
        · exact ⟨x, hx, rfl⟩
        · rw [List.mem_singleton] at hx
          subst hx
          exact absurd rfl hv
  · intro v r'
    obtain ⟨h1, h2⟩ := h.slot v r'
    rw [entries_snoc es e hr, Buffers.bmap_get? _ _ _ _ h.sorted]
    by_cases hv : e.index = v
    · subst hv
      simp only [if_true, true_and, Option.getD_some, get_set]
      by_cases hrr : r = r'
      · subst hrr
        rw [h2] at hn
        have he : entries es e.index r = [] := by
          cases hh : entries es e.index r with
          | nil => rfl
          | cons x l => rw [hh] at hn; cases hn
        simp [he]
      · simp only [hrr, if_false]
        exact ⟨h1, h2⟩
    · simp only [hv, false_and, if_false]
      exact ⟨h1, h2⟩

theorem group_ok {resolve : Nat → Nat} : ∀ (es done : List Entry) (g g' : Buffers.BMap RoleSlots),
    Holds resolve done g → groupFiles resolve es g = .ok g' → Holds resolve (done ++ es) g'
  | [], done, g, g', h, e => by
    cases e
    rw [List.append_nil]
    exact h
  | x :: es, done, g, g', h, e => by
    unfold groupFiles at e
    split at e
    · cases e
    next r hr =>
      simp only at e
      split at e
      · cases e
      next hn =>
        have := group_ok es _ _ g' (h.snoc (classify_ok.1 hr) (by simpa using hn)) e
        rwa [List.append_assoc] at this

theorem group_total {resolve : Nat → Nat} : ∀ (es done : List Entry) (g : Buffers.BMap RoleSlots),
    Holds resolve done g → (∀ e ∈ es, ∃ r, IsRole e.file r) →
    (∀ v r, (entries (done ++ es) v r).length ≤ 1) → ∃ g', groupFiles resolve es g = .ok g'
  | [], _, g, _, _, _ => ⟨g, rfl⟩
  | x :: es, done, g, h, hn, hl => by
    obtain ⟨r, hr⟩ := hn x List.mem_cons_self
    have hnone : (((AMap.get? g x.index).getD ⟨none, none⟩).get r).isSome = false := by
      rw [(h.slot x.index r).2]
      have := hl x.index r
      unfold entries at this ⊢
      rw [List.filter_append, List.filter_cons_of_pos (by simp [hr])] at this
      rw [List.length_append, List.length_cons] at this
      cases hh : List.filter _ done with
      | nil => rfl
      | cons y l =>
        rw [hh, List.length_cons] at this
        omega
    obtain ⟨g', hg⟩ := group_total es _ _ (h.snoc hr hnone)
      (fun e he => hn e (List.mem_cons_of_mem _ he)) (by rwa [List.append_assoc])
    refine ⟨g', ?_⟩
    unfold groupFiles
    rw [classify_ok.2 hr]
    simp only [hnone]
    exact hg

/-- The pair that two slots load. -/
def pairOf (load : Nat → Option Key) (s : RoleSlots) : Option Pair :=
  match s.attestation.bind load, s.proposal.bind load with
  | some a, some p => some ⟨a, p⟩
  | _, _ => none

theorem load_ok {load : Nat → Option Key} : ∀ (g : Buffers.BMap RoleSlots),
    ((∃ m, loadPairs load g = .ok m) ↔ ∀ v s, (v, s) ∈ g → (pairOf load s).isSome) ∧
    ∀ m, loadPairs load g = .ok m → m.map Prod.fst = g.map Prod.fst ∧
      ∀ v, AMap.get? m v = (AMap.get? g v).bind (pairOf load)
  | [] => by
    refine ⟨⟨fun _ v s h => (by cases h), fun _ => ⟨[], rfl⟩⟩, fun m hm => ?_⟩
    cases hm
    exact ⟨rfl, fun v => rfl⟩
  | (v, s) :: g => by
    obtain ⟨ih1, ih2⟩ := load_ok (load := load) g
    have hstep : ∀ p, pairOf load s = some p → loadPairs load ((v, s) :: g) =
        match loadPairs load g with
        | .error e => .error e
        | .ok m => .ok ((v, p) :: m) := by
      intro p hp
      unfold pairOf at hp
      obtain ⟨a, b⟩ := s
      cases a with
      | none => simp at hp
      | some a =>
        cases b with
        | none => simp at hp
        | some b =>
          simp only [Option.bind_some] at hp
          simp only [loadPairs]
          cases ha : load a with
          | none => simp [ha] at hp
          | some ka =>
            cases hb : load b with
            | none => simp [ha, hb] at hp
            | some kb =>
              simp only [ha, hb, Option.some.injEq] at hp
              subst hp
              rfl
    have hnone : pairOf load s = none → ∃ e, loadPairs load ((v, s) :: g) = .error e := by
      intro hp
      unfold pairOf at hp
      obtain ⟨a, b⟩ := s
      cases a with
      | none => exact ⟨_, rfl⟩
      | some a =>
        cases b with
        | none => exact ⟨_, rfl⟩
        | some b =>
          simp only [Option.bind_some] at hp
          simp only [loadPairs]
          cases ha : load a with
          | none => exact ⟨_, rfl⟩
          | some ka =>
            cases hb : load b with
            | none => exact ⟨_, rfl⟩
            | some kb => simp [ha, hb] at hp
    refine ⟨⟨?_, ?_⟩, ?_⟩
    · rintro ⟨m, hm⟩ w t hw
      cases hp : pairOf load s with
      | none =>
        obtain ⟨e, he⟩ := hnone hp
        rw [he] at hm
        cases hm
      | some p =>
        rw [hstep p hp] at hm
        rcases List.mem_cons.1 hw with e | hw
        · cases e
          rw [hp]
          rfl
        · split at hm
          · cases hm
          next m' hm' => exact ih1.1 ⟨m', hm'⟩ w t hw
    · intro h
      obtain ⟨p, hp⟩ := Option.isSome_iff_exists.1 (h v s List.mem_cons_self)
      obtain ⟨m, hm⟩ := ih1.2 (fun w t hw => h w t (List.mem_cons_of_mem _ hw))
      exact ⟨_, by rw [hstep p hp, hm]⟩
    · intro m hm
      cases hp : pairOf load s with
      | none =>
        obtain ⟨e, he⟩ := hnone hp
        rw [he] at hm
        cases hm
      | some p =>
        rw [hstep p hp] at hm
        split at hm
        · cases hm
        next m' hm' =>
          cases hm
          obtain ⟨g1, g2⟩ := ih2 m' hm'
          refine ⟨by rw [List.map_cons, List.map_cons, g1], fun w => ?_⟩
          rw [AMap.get?_cons, AMap.get?_cons]
          split
          · rw [Option.bind_some, hp]
          · exact g2 w

/-- The validator has exactly one entry for this key, and the file it names can be loaded. -/
def OneKey (resolve : Nat → Nat) (load : Nat → Option Key) (es : List Entry) (v : Nat) (r : Role)
    (k : Key) : Prop :=
  ∃ x, entries es v r = [x] ∧ load (resolve x.file.path) = some k

theorem Holds.one {resolve : Nat → Nat} {load : Nat → Option Key} {es : List Entry}
    {g : Buffers.BMap RoleSlots} (h : Holds resolve es g) (v : Nat) (r : Role) (k : Key) :
    (((AMap.get? g v).getD ⟨none, none⟩).get r).bind load = some k ↔
      OneKey resolve load es v r k := by
  obtain ⟨h1, h2⟩ := h.slot v r
  rw [h2]
  unfold OneKey
  cases hh : entries es v r with
  | nil => simp
  | cons x l =>
    rw [hh, List.length_cons] at h1
    have : l = [] := List.length_eq_zero_iff.1 (by omega)
    subst this
    simp

/-- **C97, when it starts.** The keys are loaded exactly if the node is listed, every file name under it
names one use, and every validator under it has exactly one entry for each use, whose file can be
loaded. -/
theorem C97_loads (resolve : Nat → Nat) (load : Nat → Option Key) (infos : AMap Nat (List Entry))
    (node : Nat) : (∃ m, readKeys resolve load infos node = .ok m) ↔
      ∃ es, infos.get? node = some es ∧ (∀ e ∈ es, ∃ r, IsRole e.file r) ∧
        ∀ e ∈ es, ∀ r, ∃ k, OneKey resolve load es e.index r k := by
  unfold readKeys
  cases hi : infos.get? node with
  | none => simp
  | some es =>
    have h0 : Holds resolve [] ([] : Buffers.BMap RoleSlots) :=
      ⟨by simp, by simp, by simp [AMap.get?_nil], fun v r => by
        cases r <;> simp [entries, AMap.get?_nil, RoleSlots.get]⟩
    simp only [Option.some.injEq, exists_eq_left']
    constructor
    · rintro ⟨m, hm⟩
      split at hm
      · cases hm
      next g hg =>
        have H := group_ok es [] [] g h0 hg
        rw [List.nil_append] at H
        refine ⟨H.named, fun e he r => ?_⟩
        obtain ⟨s, hs⟩ := Option.isSome_iff_exists.1 ((H.key e.index).2 ⟨e, he, rfl⟩)
        have hp := ((load_ok g).1.1 ⟨m, hm⟩) e.index s (AMap.mem_of_get? hs)
        have : ∃ k, (s.get r).bind load = some k := by
          unfold pairOf at hp
          cases ha : s.attestation.bind load with
          | none => simp [ha] at hp
          | some a =>
            cases hb : s.proposal.bind load with
            | none => simp [ha, hb] at hp
            | some b =>
              cases r
              · exact ⟨a, ha⟩
              · exact ⟨b, hb⟩
        obtain ⟨k, hk⟩ := this
        refine ⟨k, (H.one e.index r k).1 ?_⟩
        rw [hs]
        exact hk
    · rintro ⟨h1, h2⟩
      have hlen : ∀ v r, (entries ([] ++ es) v r).length ≤ 1 := by
        intro v r
        rw [List.nil_append]
        cases hh : entries es v r with
        | nil => simp
        | cons x l =>
          have hx : x ∈ entries es v r := by rw [hh]; exact List.mem_cons_self
          obtain ⟨hx1, rfl, -⟩ := mem_entries.1 hx
          obtain ⟨k, y, hy, -⟩ := h2 x hx1 r
          rw [← hh, hy]
          simp
      obtain ⟨g, hg⟩ := group_total es [] [] h0 h1 hlen
      have H := group_ok es [] [] g h0 hg
      rw [List.nil_append] at H
      rw [hg]
      refine (load_ok g).1.2 (fun v s hs => ?_)
      have hget : AMap.get? g v = some s :=
        AMap.get?_of_mem (Buffers.nodup_of_sorted H.sorted) hs
      obtain ⟨e, he, rfl⟩ := (H.key v).1 (by rw [hget]; rfl)
      obtain ⟨a, ha⟩ := h2 e he .attester
      obtain ⟨b, hb⟩ := h2 e he .proposer
      have ha := (H.one _ _ _).2 ha
      have hb := (H.one _ _ _).2 hb
      rw [hget, Option.getD_some] at ha hb
      simp only [RoleSlots.get] at ha hb
      simp [pairOf, ha, hb]

/-- **C97, what it gets.** The node then has exactly the validators listed under it, each of them once,
and each key comes from the file listed for that validator and that use. -/
theorem C97_keys (resolve : Nat → Nat) (load : Nat → Option Key) (infos : AMap Nat (List Entry))
    (node : Nat) {m : Manager} (hm : readKeys resolve load infos node = .ok m) {es : List Entry}
    (hes : infos.get? node = some es) :
    m.keys.Nodup ∧ (∀ v, v ∈ m.keys ↔ ∃ e ∈ es, e.index = v) ∧
      ∀ v r k, m.key v r = some k ↔ OneKey resolve load es v r k ∧ v ∈ m.keys := by
  have h0 : Holds resolve [] ([] : Buffers.BMap RoleSlots) :=
    ⟨by simp, by simp, by simp [AMap.get?_nil], fun v r => by
      cases r <;> simp [entries, AMap.get?_nil, RoleSlots.get]⟩
  unfold readKeys at hm
  rw [hes] at hm
  simp only at hm
  split at hm
  · cases hm
  next g hg =>
    have H := group_ok es [] [] g h0 hg
    rw [List.nil_append] at H
    obtain ⟨l1, l2⟩ := (load_ok g).2 m hm
    have hkeys : m.keys = AMap.keys g := l1
    have hpair := (load_ok g).1.1 ⟨m, hm⟩
    refine ⟨hkeys ▸ Buffers.nodup_of_sorted H.sorted, fun v => ?_, fun v r k => ?_⟩
    · rw [hkeys, AMap.mem_keys_iff, ← H.key, Option.isSome_iff_exists]
    · rw [← H.one, hkeys, AMap.mem_keys_iff]
      unfold Manager.key
      rw [l2]
      cases hs : AMap.get? g v with
      | none => simp
      | some s =>
        have hp := hpair v s (AMap.mem_of_get? hs)
        simp only [Option.bind_some, Option.getD_some, Option.some.injEq, exists_eq', and_true]
        unfold pairOf at hp ⊢
        cases ha : s.attestation.bind load with
        | none => simp [ha] at hp
        | some a =>
          cases hb : s.proposal.bind load with
          | none => simp [ha, hb] at hp
          | some b => cases r <;> simp [RoleSlots.get, ha, hb]

/-! Two validators under node 1, with two files each. -/

def wEntries : List Entry :=
  [⟨4, ⟨some "validator_4_attester_key_sk.ssz".toList, 10⟩⟩,
   ⟨7, ⟨some "validator_7_proposer_key_sk.ssz".toList, 13⟩⟩,
   ⟨4, ⟨some "validator_4_proposer_key_sk.ssz".toList, 11⟩⟩,
   ⟨7, ⟨some "validator_7_attester_key_sk.ssz".toList, 12⟩⟩]

/-- They are loaded, each key from its own file. -/
example : ∃ m, readKeys (fun p => p + 100) (fun p => some ⟨65536, p, p + 4, p⟩)
      [(0, []), (1, wEntries)] 1 = .ok m ∧
    m.key 4 .attester = some ⟨65536, 110, 114, 110⟩ ∧ m.key 4 .proposer = some ⟨65536, 111, 115, 111⟩ ∧
    m.key 7 .attester = some ⟨65536, 112, 116, 112⟩ ∧ m.key 7 .proposer = some ⟨65536, 113, 117, 113⟩ :=
  ⟨[(4, ⟨⟨65536, 110, 114, 110⟩, ⟨65536, 111, 115, 111⟩⟩),
    (7, ⟨⟨65536, 112, 116, 112⟩, ⟨65536, 113, 117, 113⟩⟩)], by decide +kernel, rfl, rfl, rfl, rfl⟩

/-- A second proposal key for validator 4 is refused. -/
example : readKeys id (fun p => some ⟨65536, p, p + 4, p⟩)
    [(1, wEntries ++ [⟨4, ⟨some "old_proposer.ssz".toList, 9⟩⟩])] 1 =
      .error (.duplicate 4 .proposer) := by decide +kernel

end Verif.Keys
