import Verif.Props.C78_Signatures
import Verif.Props.C43_Build
import Verif.Lemmas.StoreFrame
/-!
# C80: a node's own block passes every check
-/
namespace Verif.Node
open Verif Verif.Db Verif.Buffers Verif.Build

variable {X : Crypto} {H : Hash}

theorem mergeInputs_iff {vals : List Validator} {as : List Agg} {l : List (List Nat × Nat)} :
    mergeInputs X vals as = some l ↔ List.Forall₂ (fun (g : Agg) (x : List Nat × Nat) =>
      attestationKeys X vals (validatorIndices g.participants) = .ok x.1 ∧ x.2 = g.proof) as l := by
  induction as generalizing l with
  | nil =>
    unfold mergeInputs
    constructor
    · intro h; cases h; exact .nil
    · intro h; cases h; rfl
  | cons a as ih =>
    unfold mergeInputs
    constructor
    · intro h
      split at h
      · cases h
      next ks hk =>
        split at h
        · cases h
        next l' hl => cases h; exact .cons ⟨hk, rfl⟩ (ih.1 hl)
    · intro h
      cases h with
      | cons h1 h2 =>
        rw [h1.1]; simp only; rw [ih.2 h2]
        simp only [← h1.2]

/-- Key lists are determined by the participants. -/
theorem forall2_func {α β : Type} {R : α → β → Prop} (hR : ∀ a b c, R a b → R a c → b = c)
    {l : List α} {m n : List β} (h1 : List.Forall₂ R l m) (h2 : List.Forall₂ R l n) : m = n := by
  induction h1 generalizing n with
  | nil => cases h2; rfl
  | cons a _ ih => cases h2 with
    | cons b h => rw [hR _ _ _ a b, ih h]

theorem voteKeys_unique {vals : List Validator} {a : AggAtt} {ks ks' : List Nat}
    (h1 : VoteKeys X vals a ks) (h2 : VoteKeys X vals a ks') : ks = ks' := by
  refine forall2_func ?_ h1 h2
  rintro v k k' ⟨x, e1, e2⟩ ⟨y, f1, f2⟩
  rw [e1] at f1; cases f1
  rw [e2] at f2; cases f2; rfl

theorem forall2_exists {α β : Type} {R : α → β → Prop} :
    ∀ {l : List α}, (∀ a ∈ l, ∃ b, R a b) → ∃ m, List.Forall₂ R l m
  | [], _ => ⟨[], .nil⟩
  | a :: l, h => by
    obtain ⟨b, hb⟩ := h a List.mem_cons_self
    obtain ⟨m, hm⟩ := forall2_exists (l := l) (fun x hx => h x (List.mem_cons_of_mem _ hx))
    exact ⟨b :: m, .cons hb hm⟩

theorem forall2_mem_right {α β : Type} {R : α → β → Prop} {l : List α} {m : List β}
    (h : List.Forall₂ R l m) {b : β} (hb : b ∈ m) : ∃ a ∈ l, R a b := by
  induction h with
  | nil => cases hb
  | cons h1 _ ih =>
    rcases List.mem_cons.1 hb with rfl | hb
    · exact ⟨_, List.mem_cons_self, h1⟩
    · obtain ⟨a, ha, hr⟩ := ih hb
      exact ⟨a, List.mem_cons_of_mem _ ha, hr⟩

theorem forall2_mem_left {α β : Type} {R : α → β → Prop} {l : List α} {m : List β}
    (h : List.Forall₂ R l m) {a : α} (ha : a ∈ l) : ∃ b ∈ m, R a b := by
  obtain ⟨i, b, -, h2, h3⟩ := Forall2.mem_left h ha
  exact ⟨b, List.mem_of_getElem? h2, h3⟩

/-- The merge of valid proofs is valid. -/
theorem mergeProofs_valid (hX : Complete X) {vals : List Validator} {d : AttData} {gs : List Agg}
    {p : Nat} {bits : Bits} (hv : ∀ g ∈ gs, ValidAgg X H vals d g)
    (hb : ∀ v : Nat, bits[v]? = some true ↔ ∃ g ∈ gs, g.participants[v]? = some true)
    (h : mergeProofs X H vals d gs = some p) : ValidAgg X H vals d ⟨bits, p⟩ := by
  unfold mergeProofs at h
  split at h
  · cases h
  next l hl =>
  have hl := mergeInputs_iff.1 hl
  split at h
  next hs =>
    unfold aggregateProofs at h
    split at h
    · cases h
    have hin : ∀ x ∈ l, ∃ g ∈ gs, VoteKeys X vals ⟨g.participants, d⟩ x.1 ∧
        X.info1 x.2 x.1 = some (H.attData d, d.slot) ∧ X.check1 x.2 x.1 = true := by
      intro x hx
      obtain ⟨g, hg, h1, h2⟩ := forall2_mem_right hl hx
      obtain ⟨ks, k1, k2, k3⟩ := hv g hg
      have h1 : VoteKeys X vals ⟨g.participants, d⟩ x.1 := attestationKeys_iff.1 h1
      have := voteKeys_unique k1 h1
      subst this
      exact ⟨g, hg, h1, by rw [h2]; exact k2, by rw [h2]; exact k3⟩
    have hks : ∃ ks, VoteKeys X vals ⟨bits, d⟩ ks := by
      apply forall2_exists
      intro v hm
      obtain ⟨g, hg, hgv⟩ := (hb v).1 (mem_setBits.1 hm)
      obtain ⟨ks, k1, -⟩ := hv g hg
      obtain ⟨k, -, hk⟩ := forall2_mem_left k1 (mem_setBits.2 hgv)
      exact ⟨k, hk⟩
    obtain ⟨ks, hks⟩ := hks
    refine ⟨ks, hks, hX.single l [] _ _ p (fun x hx => (hin x hx).choose_spec.2.2) (by simp)
      (by simp) (by simp) h ks ?_⟩
    intro k
    simp only [List.not_mem_nil, false_and, exists_false, or_false]
    constructor
    · intro hk
      obtain ⟨v, hm, hvk⟩ := forall2_mem_right hks hk
      obtain ⟨g, hg, hgv⟩ := (hb v).1 (mem_setBits.1 hm)
      obtain ⟨x, hx, h1, -⟩ := forall2_mem_left hl hg
      have h1 : VoteKeys X vals ⟨g.participants, d⟩ x.1 := attestationKeys_iff.1 h1
      obtain ⟨k', hk', val', e1, e2⟩ := forall2_mem_left h1 (mem_setBits.2 hgv)
      obtain ⟨val, f1, f2⟩ := hvk
      rw [e1] at f1; cases f1
      rw [e2] at f2; cases f2
      exact ⟨x, hx, hk'⟩
    · rintro ⟨x, hx, hk⟩
      obtain ⟨g, hg, h1, -⟩ := hin x hx
      obtain ⟨v, hm, val, e1, e2⟩ := forall2_mem_right h1 hk
      have hbv := (hb v).2 ⟨g, hg, mem_setBits.1 hm⟩
      obtain ⟨k', hk', val', f1, f2⟩ := forall2_mem_left hks (mem_setBits.2 hbv)
      rw [e1] at f1; cases f1
      rw [e2] at f2; cases f2
      exact hk'
  · cases h

theorem rounds_mem_pool {hist known : List Root} {n : Nat} {pool : Pool} {done : List Root}
    {p : Projected} {ks : List Pick} (h : Rounds hist known n pool done p ks) :
    ∀ k ∈ ks, (k.root, k.data, k.proofs) ∈ pool := by
  induction h with
  | nil => intro k hk; cases hk
  | cons h1 _ _ _ _ _ ih =>
    intro k hk
    rcases List.mem_cons.1 hk with rfl | hk
    · exact h1
    · exact ih k hk

/-- The proofs the builder returns are valid for the attestations of the block when those in the
pool are. -/
theorem build_valid (hX : Complete X) {vals : List Validator} {ord : Root → List Nat → List Nat}
    (ho : ∀ r l, (ord r l).Perm l) {s : State} {slot proposer : Nat} {parentRoot : Root}
    {known : List Root} {pool : Pool} {c : Config} {b : Block} {proofs : List Agg} {post : State}
    (hn : pool.keys.Nodup)
    (hp : ∀ e ∈ pool, ∀ g ∈ e.2.2, ValidAgg X H vals e.2.1 g ∧ e.2.1.slot < 2 ^ 32)
    (h : buildBlock H (mergeProofs X H vals) ord s slot proposer parentRoot known pool c =
      .ok (b, proofs, post)) :
    List.Forall₂ (fun (a : AggAtt) (g : Agg) => a.bits = g.participants ∧
      ValidAgg X H vals a.data g ∧ a.data.slot < 2 ^ 32) b.body proofs := by
  unfold buildBlock at h
  cases hsel : selectAttestations s slot parentRoot known ord pool c.maxAtts with
  | none => rw [hsel] at h; cases h
  | some sel =>
  rw [hsel] at h
  simp only at h
  cases hes : (if c.aggregate then compact (mergeProofs X H vals) sel
      else some (keepBest (runningVotes s) sel)) with
  | none => rw [hes] at h; cases h
  | some es =>
  rw [hes] at h
  simp only at h
  obtain ⟨ks, hk1, hk2, hk3⟩ := selectAttestations_spec hn hsel
  have hal : ∀ e ∈ sel, e.1.bits = e.2.participants := by rw [hk3]; exact entries_aligned
  have hval : ∀ e ∈ sel, ValidAgg X H vals e.1.data e.2 ∧ e.1.data.slot < 2 ^ 32 := by
    intro e he
    rw [hk3] at he
    obtain ⟨k, hk, hke⟩ := List.mem_flatMap.1 he
    obtain ⟨m1, m2, m3⟩ := mem_entries hke
    have hpk := rounds_mem_pool hk2 k hk
    have := hp _ hpk e.2 (extend_mem (ho _) m3).1
    rw [m1]
    exact this
  have hout : ∀ x ∈ es, x.1.bits = x.2.participants ∧ ValidAgg X H vals x.1.data x.2 ∧
      x.1.data.slot < 2 ^ 32 := by
    by_cases hc : c.aggregate = true
    · rw [if_pos hc] at hes
      have hes' := hes
      unfold compact at hes
      split at hes
      · cases hes
        exact fun x hx => ⟨hal x hx, hval x hx⟩
      · intro x hx
        obtain ⟨d, -, hd⟩ := forall2_mem_right (collect_spec hes) hx
        obtain ⟨g1, g2, g3, g4⟩ := compactGroup_spec hal hd
        refine ⟨g2, ?_⟩
        rcases g4 with ⟨e, he, rfl⟩ | g4
        · have : x ∈ group sel d := by rw [he]; exact List.mem_singleton.2 rfl
          exact hval x (mem_group.1 this).1
        · rw [g1]
          have hgv : ∀ g ∈ (group sel d).map Prod.snd, ValidAgg X H vals d g := by
            intro g hg
            obtain ⟨e, he, rfl⟩ := List.mem_map.1 hg
            obtain ⟨e1, e2⟩ := mem_group.1 he
            rw [← e2]; exact (hval e e1).1
          constructor
          · refine mergeProofs_valid hX (bits := x.2.participants) hgv ?_ g4
            intro v
            rw [← g2]
            refine (g3 v).trans ?_
            constructor
            · rintro ⟨e, he, hed, hev⟩
              refine ⟨e.2, List.mem_map_of_mem (mem_group.2 ⟨he, hed⟩), ?_⟩
              rw [← hal e he]; exact hev
            · rintro ⟨g, hg, hgv⟩
              obtain ⟨e, he, rfl⟩ := List.mem_map.1 hg
              obtain ⟨e1, e2⟩ := mem_group.1 he
              exact ⟨e, e1, e2, by unfold Votes; rw [hal e e1]; exact hgv⟩
          · unfold mergeProofs at g4
            split at g4
            · cases g4
            split at g4
            next hs => exact hs
            · cases g4
    · rw [if_neg hc] at hes
      cases hes
      obtain ⟨-, h2, -⟩ := C44_keep_best s sel
      exact fun x hx => ⟨hal x (h2 x hx), hval x (h2 x hx)⟩
  have hbody : b.body = es.map Prod.fst ∧ proofs = es.map Prod.snd := by
    cases hs1 : processSlots H s slot with
    | error e => rw [hs1] at h; cases h
    | ok s1 =>
    rw [hs1] at h
    simp only at h
    split at h
    · cases h
    · simp only [Except.ok.injEq, Prod.mk.injEq] at h
      obtain ⟨rfl, rfl, -⟩ := h
      exact ⟨rfl, rfl⟩
  rw [hbody.1, hbody.2]
  clear h hbody hes
  induction es with
  | nil => exact .nil
  | cons x es ih =>
    exact .cons (hout x List.mem_cons_self) (ih (fun y hy => hout y (List.mem_cons_of_mem _ hy)))

theorem forall2_inputs {vals : List Validator} {as : List AggAtt} {gs : List Agg}
    {l : List (List Nat × Nat)}
    (h : List.Forall₂ (fun (a : AggAtt) (g : Agg) => a.bits = g.participants ∧
      ValidAgg X H vals a.data g ∧ a.data.slot < 2 ^ 32) as gs)
    (hl : List.Forall₂ (fun (g : Agg) (x : List Nat × Nat) =>
      attestationKeys X vals (validatorIndices g.participants) = .ok x.1 ∧ x.2 = g.proof) gs l) :
    List.Forall₂ (VoteKeys X vals) as (l.map Prod.fst) ∧
    List.Forall₂ (fun (x : List Nat × Nat) (b : Root × Nat) => Valid1 X x.2 x.1 b) l (as.map (fun a => (H.attData a.data, a.data.slot))) := by
  induction h generalizing l with
  | nil => cases hl; exact ⟨.nil, .nil⟩
  | cons h1 _ ih =>
    cases hl with
    | cons g1 g2 =>
      obtain ⟨i1, i2⟩ := ih g2
      obtain ⟨e1, ⟨ks, k1, k2, k3⟩, -⟩ := h1
      obtain ⟨f1, f2⟩ := g1
      have f1 := attestationKeys_iff.1 f1
      have : ks = _ := voteKeys_unique k1 f1
      subst this
      refine ⟨.cons ?_ i1, .cons ?_ i2⟩
      · unfold VoteKeys; rw [e1]; exact f1
      · rw [f2]; exact ⟨k2, k3⟩

/-- **C80.** A block the node builds on its head state `s` from a pool of valid aggregates, signed
with the proposer's key and assembled without failure, carries a proof that verifies on `s`, and
passes every check of `on_block` against `s`, in both proposer configurations. -/
theorem C80_own_block (hX : Complete X) {ord : Root → List Nat → List Nat}
    (ho : ∀ r l, (ord r l).Perm l) {s : State} {slot vid : Nat} {parentRoot : Root}
    {known : List Root} {pool : Pool} {c : Config} {b : Block} {proofs : List Agg} {post : State}
    {sign : Nat → Nat → Root → Option Nat} {sb : SignedBlock}
    (hn : pool.keys.Nodup)
    (hp : ∀ e ∈ pool, ∀ g ∈ e.2.2, ValidAgg X H s.validators e.2.1 g ∧ e.2.1.slot < 2 ^ 32)
    (hk : SignsWith X s.validators vid sign) (hslot : slot < 2 ^ 32)
    (h : buildBlock H (mergeProofs X H s.validators) ord s slot vid parentRoot known pool c =
      .ok (b, proofs, post))
    (ha : assembleProof X H s sign slot vid b proofs = some sb) :
    sb.block = b ∧ verifyBlockSignatures X H s sb = .ok () ∧
    ∀ store : Store, slot - s.slot ≤ historicalRootsLimit → slot ≤ store.currentSlot + 1 →
      ∃ st, checkBlock (envOf X H) store s sb = .ok st ∧ importState H s b = .ok st := by
  have hv := build_valid hX ho hn hp h
  obtain ⟨b1, b2, b3, b4, b5, b6, b7, b8⟩ := C43_accepted hn h
  unfold assembleProof at ha
  simp only at ha
  split at ha
  · cases ha
  next raw hraw =>
  split at ha
  · cases ha
  next val hval =>
  split at ha
  · cases ha
  next k hkey =>
  split at ha
  · cases ha
  next sig hsig =>
  split at ha
  · cases ha
  next p hpr =>
  split at ha
  · cases ha
  next l hl =>
  split at ha
  · cases ha
  next proof hm =>
  have hmod : slot % 2 ^ 32 = slot := Nat.mod_eq_of_lt hslot
  rw [hmod] at hraw hpr
  have hxm := hk _ _ _ _ _ _ hraw hsig hval hkey
  have hp1 : Valid1 X p [k] (b.root H, slot) := by
    unfold aggregateSignatures at hpr
    simp only [List.length_cons, List.length_nil, ne_eq, not_true_eq_false, if_false,
      List.isEmpty_cons, Bool.false_eq_true, List.zip_cons_cons, List.zip_nil_right] at hpr
    exact hX.single [] [(k, sig)] _ _ p (by simp) (by simpa using hxm) (by simp) (by simp) hpr [k]
      (by simp)
  obtain ⟨i1, i2⟩ := forall2_inputs hv (mergeInputs_iff.1 hl)
  have hm2 := by
    unfold mergeType1s at hm
    rw [if_neg (by simp)] at hm
    exact hX.multi _ _ _ (List.rel_append i2 (.cons hp1 .nil)) hm
  have hvs : verifyBlockSignatures X H s sb = .ok () := by
    cases ha
    refine (C78_accepts_iff X H s _).2 ⟨⟨l.map Prod.fst, val, k, i1, ?_, hkey, ?_, ?_⟩, ?_, ?_⟩
    · show s.validators[b.proposerIndex]? = _
      rw [b2]; exact hval
    · have := hm2.1
      simp only [List.map_append, List.map_cons, List.map_nil] at this
      show X.info2 proof _ = some (b.body.map _ ++ [(b.root H, b.slot)])
      rw [b1]; exact this
    · have := hm2.2
      simp only [List.map_append, List.map_cons, List.map_nil] at this
      exact this
    · show b.slot < _
      rw [b1]; exact hslot
    · intro a ha
      obtain ⟨g, -, hg⟩ := forall2_mem_left hv ha
      exact hg.2.2
  have hb : sb.block = b := by cases ha; rfl
  refine ⟨hb, hvs, fun store h1 h2 => ?_⟩
  have himp : ∃ st, importState H s b = .ok st := by
    unfold importState; rw [b8]; exact ⟨_, rfl⟩
  obtain ⟨st, hst⟩ := himp
  refine ⟨st, ?_, hst⟩
  unfold checkBlock
  have h8 : maxAttestationsData = 8 := rfl
  have hdup : hasDuplicate (b.body.map AggAtt.data) = false := by
    clear hvs hb i1 i2 hv
    generalize b.body.map AggAtt.data = ds at b4
    induction ds with
    | nil => rfl
    | cons d ds ih =>
      rw [List.nodup_cons] at b4
      unfold hasDuplicate
      rw [ih b4.2]
      simpa using b4.1
  rw [hb, if_neg (by rw [b1]; omega), if_neg (by rw [b1]; omega), hdup, if_neg (by simp),
    if_neg (by omega), if_neg]
  · simp only [envOf, hst]
  · simp [envOf, hvs, accepted]

/-- **C80.** Hence the store never refuses the node's own block: if the head state is what the store
holds for the parent, `on_block` does not return an error. -/
theorem C80_not_refused (hX : Complete X) {ord : Root → List Nat → List Nat}
    (ho : ∀ r l, (ord r l).Perm l) {s : State} {slot vid : Nat} {parentRoot : Root}
    {known : List Root} {pool : Pool} {c : Config} {b : Block} {proofs : List Agg} {post : State}
    {sign : Nat → Nat → Root → Option Nat} {sb : SignedBlock}
    (hn : pool.keys.Nodup)
    (hp : ∀ e ∈ pool, ∀ g ∈ e.2.2, ValidAgg X H s.validators e.2.1 g ∧ e.2.1.slot < 2 ^ 32)
    (hk : SignsWith X s.validators vid sign) (hslot : slot < 2 ^ 32)
    (h : buildBlock H (mergeProofs X H s.validators) ord s slot vid parentRoot known pool c =
      .ok (b, proofs, post))
    (ha : assembleProof X H s sign slot vid b proofs = some sb)
    {store store1 store' : Store} {r : Except Err Unit}
    (hpar : store.getState parentRoot = .ok (some s, store1))
    (h1 : slot - s.slot ≤ historicalRootsLimit) (h2 : slot ≤ store.currentSlot + 1)
    (hr : onBlock (envOf X H) store sb = .ok (store', r)) : r = .ok () := by
  obtain ⟨e1, -, e3⟩ := C80_own_block hX ho hn hp hk hslot h ha
  obtain ⟨-, -, b3, -⟩ := C43_accepted hn h
  unfold onBlock at hr
  split at hr
  · cases hr; rfl
  rw [e1, b3, hpar] at hr
  simp only at hr
  have hcs : store1.currentSlot = store.currentSlot := by
    unfold Store.currentSlot
    rw [(getState_frame hpar).1]
  obtain ⟨st, hst, -⟩ := e3 store1 h1 (by rw [hcs]; exact h2)
  rw [hst] at hr
  simp only at hr
  split at hr
  · cases hr
  · cases hr; rfl

/-! ## A concrete case -/

namespace Witness
open Verif.Witness

theorem wDecode (m s : Nat) (h : s < 1000) (hm : m < 1000) :
    (m * 1000 + s) % 1000000 / 1000 = m ∧ (m * 1000 + s) % 1000 = s ∧ m * 1000 + s < 1000000 := by
  omega

theorem wMake1_info (m : Root) (s : Nat) : wInfo1 (wMake1 m s) = (m, s) := by
  unfold wMake1 wInfo1
  split
  next hc =>
    obtain ⟨h1, h2, h3⟩ := wDecode m s hc.1 (Nat.blt_eq ▸ hc.2)
    rw [if_pos (Nat.lt_trans h3 (by decide)), h1, h2]
  · rw [if_neg (Nat.not_lt.2 (Nat.le_add_right _ _)), Nat.add_sub_cancel_left, Nat.unpair_pair]

theorem wMake1_good (m : Root) (s : Nat) : wMake1 m s < 1000000 ∨ 2000000 ≤ wMake1 m s := by
  unfold wMake1
  split
  next hc => exact .inl (wDecode m s hc.1 (Nat.blt_eq ▸ hc.2)).2.2
  · exact .inr (Nat.le_add_right _ _)

theorem wMake_info (l : List (Root × Nat)) : wInfo (wMake l) = some l := by
  unfold wMake
  split
  next p h =>
    have := List.find?_some h
    exact of_decide_eq_true this
  next h =>
    unfold wInfo
    rw [if_neg (Nat.not_lt.2 (Nat.le_add_right _ _)), Nat.add_sub_cancel_left]
    exact Encodable.encodek _

theorem wMake_good (l : List (Root × Nat)) : wMake l < 100 ∨ 1000 ≤ wMake l := by
  unfold wMake
  split
  next p h =>
    have : p < 5 := by simpa using List.mem_of_find?_eq_some h
    exact .inl (Nat.lt_trans this (by decide))
  · exact .inr (Nat.le_add_right _ _)

theorem wX_complete : Complete wX where
  single l raw m s p hl hr _ _ hp ks hks := by
    have hp : wMake1 m s = p := by
      simp only [wX] at hp
      split at hp
      · exact Option.some.inj hp
      · cases hp
    subst hp
    refine ⟨congrArg some (wMake1_info m s), Bool.and_eq_true_iff.2
      ⟨decide_eq_true (wMake1_good m s), ?_⟩⟩
    rw [List.all_eq_true]
    intro k hk
    rcases (hks k).1 hk with ⟨x, hx, hkx⟩ | ⟨x, hx, rfl⟩
    · exact List.all_eq_true.1 (Bool.and_eq_true_iff.1 (hl x hx).2).2 k hkx
    · have := hr x hx
      simp only [wX, decide_eq_true_eq] at this
      exact decide_eq_true this.1
  multi l bs p h hp := by
    have hbs : bs = l.map (fun x => wInfo1 x.2) := by
      clear hp
      induction h with
      | nil => rfl
      | cons h1 _ ih =>
        have := Option.some.inj h1.1
        rw [List.map_cons, ← ih, this]
    have hp : wMake (l.map (fun x => wInfo1 x.2)) = p := by
      simp only [wX] at hp
      split at hp
      · exact Option.some.inj hp
      · cases hp
    subst hp
    refine ⟨?_, Bool.and_eq_true_iff.2 ⟨decide_eq_true (wMake_good _), ?_⟩⟩
    · rw [hbs]
      exact wMake_info _
    · rw [List.all_eq_true]
      intro ks hks
      obtain ⟨x, hx, rfl⟩ := List.mem_map.1 hks
      obtain ⟨b, -, -, hc⟩ := forall2_mem_left h hx
      exact (Bool.and_eq_true_iff.1 hc).2
  split p kss info i q ks b h1 h2 h3 h4 h5 := by
    have h1 : wInfo p = some info := h1
    have h2 := Bool.and_eq_true_iff.1 h2
    have hp : p < 100 ∨ 1000 ≤ p := of_decide_eq_true h2.1
    simp only [wX, h1, h4, Option.map_some, if_pos hp, Nat.add_zero, Option.some.injEq] at h5
    subst h5
    exact ⟨congrArg some (wMake1_info _ _), Bool.and_eq_true_iff.2
      ⟨decide_eq_true (wMake1_good _ _), List.all_eq_true.1 h2.2 ks (List.mem_of_getElem? h3)⟩⟩

/-- The head state after block 1. -/
def oState : State := match importState wH wG (mkBlock 1 0 []) with
  | .ok s => s
  | .error _ => wG

/-- Two aggregates for the vote `0 → 1`. -/
def oPool : Pool := [(1, (vote [] 0 1).data, [⟨[true, true], 1001⟩, ⟨[false, false, true], 1001⟩])]

def oBlock : Block := mkBlock 2 1 [vote [true, true, true] 0 1]

/-- Non-vacuity: all hypotheses of C80 hold for block 2, whose two aggregates are merged into one. -/
example : Complete wX ∧ oPool.keys.Nodup ∧
    (∀ e ∈ oPool, ∀ g ∈ e.2.2, ValidAgg wX wH oState.validators e.2.1 g ∧ e.2.1.slot < 2 ^ 32) ∧
    SignsWith wX oState.validators 2 (fun _ s _ => some s) ∧
    (∃ post, buildBlock wH (mergeProofs wX wH oState.validators) (fun _ l => l) oState 2 2 2 [2, 1]
      oPool ⟨true, 8⟩ = .ok (oBlock, [⟨[true, true, true], 1001⟩], post)) ∧
    assembleProof wX wH oState (fun _ s _ => some s) 2 2 oBlock [⟨[true, true, true], 1001⟩] =
      some (sgn oBlock) := by
  refine ⟨wX_complete, by decide, ?_, ?_, ⟨(match buildBlock wH (mergeProofs wX wH oState.validators)
    (fun _ l => l) oState 2 2 2 [2, 1] oPool ⟨true, 8⟩ with | .ok x => x.2.2 | .error _ => wG), ?_⟩, ?_⟩
  · have hv : oState.validators = wVals := by decide +kernel
    rw [hv]
    intro e he g hg
    simp only [oPool, List.mem_singleton] at he
    subst he
    refine ⟨?_, by decide⟩
    simp only [List.mem_cons, List.not_mem_nil, or_false] at hg
    rcases hg with rfl | rfl
    · exact ⟨[1, 2], attestationKeys_iff.1 (by decide +kernel), by decide, by decide⟩
    · exact ⟨[3], attestationKeys_iff.1 (by decide +kernel), by decide, by decide⟩
  · have hv : oState.validators = wVals := by decide +kernel
    rw [hv]
    intro s m raw sig val k h1 h2 h3 h4
    cases h1; cases h2; cases h3
    have : some 3 = some k := h4
    cases this
    simp [wX]
  · decide +kernel
  · decide +kernel

end Witness

end Verif.Node
