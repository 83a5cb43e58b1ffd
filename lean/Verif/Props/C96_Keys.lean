import Verif.Model.KeyFiles
import Verif.Lemmas.AMap
/-!
# C96: keys can sign all their life
-/
namespace Verif.Keys
open Verif

/-- The slot belongs to the key's activation interval. -/
def Active (k : Key) (slot : Nat) : Prop := k.first * k.width ≤ slot ∧ slot < k.stop * k.width

/-- A key as generated: at least two bottom trees, the first two prepared. -/
structure Fresh (k : Key) : Prop where
  width : 0 < k.width
  trees : k.first + 2 ≤ k.stop
  left : k.left = k.first

/-- The slot that a request concerns. -/
def Ask.slot : Ask → Nat
  | .prepare s | .vote _ s | .block _ s => s

theorem advance_same {k : Key} (hw : 0 < k.width) :
    k.advance.interval = k.interval ↔ k.stop < k.left + 3 := by
  unfold Key.advance
  split
  next hh =>
    simp only [Key.interval, Prod.mk.injEq, Nat.add_mul]
    omega
  · simp only [true_iff]
    omega

/-- One turn of the loop. -/
theorem advanceLoop_eq {k : Key} (hw : 0 < k.width) (slot : Nat) :
    advanceLoop k slot = if k.prepared slot then (k, true)
      else if k.stop < k.left + 3 then (k, false)
      else advanceLoop { k with left := k.left + 1 } slot := by
  rw [advanceLoop]
  by_cases hp : k.prepared slot
  · rw [if_pos hp, if_pos hp]
  · rw [if_neg hp, if_neg hp]
    by_cases hs : k.stop < k.left + 3
    · have := (advance_same hw).2 hs
      rw [if_pos hs]
      simp only [this, dite_true]
      rw [Key.advance, if_neg (by omega)]
    · have := mt (advance_same hw).1 hs
      rw [if_neg hs]
      simp only [this, dite_false]
      rw [Key.advance, if_pos (by omega)]

theorem prepared_iff {k : Key} {slot : Nat} :
    k.prepared slot = true ↔ k.left * k.width ≤ slot ∧ slot < (k.left + 2) * k.width := by
  exact decide_eq_true_iff

/-- What the loop does with a slot that is not before the window. -/
theorem advanceLoop_ahead : ∀ (n : Nat) (k : Key) (slot : Nat), k.stop - k.left ≤ n →
    0 < k.width → k.left * k.width ≤ slot →
    ∃ l b, advanceLoop k slot = ({ k with left := l }, b) ∧ k.left ≤ l ∧
      (l = k.left ∨ (l + 1) * k.width ≤ slot) ∧
      (b = true → l * k.width ≤ slot ∧ slot < (l + 2) * k.width) ∧
      (slot < k.stop * k.width → b = true)
  | n, k, slot, hn, hw, hs => by
    rw [advanceLoop_eq hw]
    by_cases hp : k.prepared slot
    · rw [if_pos hp]
      exact ⟨k.left, true, rfl, Nat.le_refl _, .inl rfl, fun _ => prepared_iff.1 hp, fun _ => rfl⟩
    · rw [if_neg hp]
      have hge : (k.left + 2) * k.width ≤ slot := by
        rw [prepared_iff] at hp
        omega
      by_cases hst : k.stop < k.left + 3
      · rw [if_pos hst]
        refine ⟨k.left, false, rfl, Nat.le_refl _, .inl rfl, by simp, fun h => ?_⟩
        have : k.stop * k.width ≤ (k.left + 2) * k.width := Nat.mul_le_mul_right _ (by omega)
        omega
      · rw [if_neg hst]
        have h1 : (k.left + 1) * k.width ≤ (k.left + 2) * k.width :=
          Nat.mul_le_mul_right _ (by omega)
        match n with
        | 0 => omega
        | n + 1 =>
          obtain ⟨l, b, e1, e2, e3, e4, e5⟩ := advanceLoop_ahead n { k with left := k.left + 1 } slot
            (by dsimp only; omega) hw (by dsimp only; omega)
          dsimp only at e2 e3 e4 e5
          refine ⟨l, b, e1, by omega, .inr ?_, e4, e5⟩
          rcases e3 with rfl | e3
          · exact hge
          · exact e3

/-- What the loop does with a slot that is before the window. -/
theorem advanceLoop_behind : ∀ (n : Nat) (k : Key) (slot : Nat), k.stop - k.left ≤ n →
    0 < k.width → slot < k.left * k.width →
    advanceLoop k slot = ({ k with left := max k.left (k.stop - 2) }, false)
  | n, k, slot, hn, hw, hs => by
    rw [advanceLoop_eq hw, if_neg (by rw [prepared_iff]; omega)]
    by_cases hst : k.stop < k.left + 3
    · rw [if_pos hst, Nat.max_eq_left (by omega)]
    · rw [if_neg hst]
      match n with
      | 0 => omega
      | n + 1 =>
        have : slot < (k.left + 1) * k.width := by
          rw [Nat.add_mul]
          omega
        rw [advanceLoop_behind n { k with left := k.left + 1 } slot (by dsimp only; omega) hw this]
        dsimp only
        rw [Nat.max_eq_right (by omega), Nat.max_eq_right (by omega)]

theorem advanceKey_loop (k : Key) (slot : Nat) : advanceKey k slot = advanceLoop k slot := by
  unfold advanceKey
  split
  next h => rw [advanceLoop, if_pos h]
  · rfl

/-- The library is only asked to sign what is prepared. -/
theorem advanceLoop_prepared (k : Key) (slot : Nat) (h : (advanceLoop k slot).2 = true) :
    (advanceLoop k slot).1.prepared slot = true := by
  induction k using advanceLoop.induct (slot := slot) with
  | case1 k hp => rw [advanceLoop, if_pos hp]; exact hp
  | case2 k hp k' he =>
    rw [advanceLoop, if_neg hp, dif_pos he] at h
    cases h
  | case3 k hp k' he ih =>
    rw [advanceLoop, if_neg hp, dif_neg he] at h ⊢
    exact ih h

theorem signKey_no_panic (k : Key) (slot : Nat) : (signKey k slot).2 ≠ .panic := by
  unfold signKey
  rw [advanceKey_loop]
  have := advanceLoop_prepared k slot
  generalize advanceLoop k slot = r at this
  obtain ⟨k', b⟩ := r
  cases b with
  | false => simp
  | true => simp [Key.sign, this rfl]

/-- **C96, no panic.** Whatever it is asked, the key manager asks no key to sign a slot the key is not
prepared for. -/
theorem C96_no_panic (m : Manager) (asks : List Ask) : Reply.panic ∉ (m.run asks).2 := by
  induction asks generalizing m with
  | nil => simp [Manager.run]
  | cons a as ih =>
    simp only [Manager.run, List.mem_cons, not_or]
    refine ⟨?_, ih _⟩
    cases a with
    | prepare s => simp [Manager.step]
    | vote v s =>
      simp only [Manager.step]
      split
      · simp
      · exact Ne.symm (signKey_no_panic _ _)
    | block v s =>
      simp only [Manager.step]
      split
      · simp
      · exact Ne.symm (signKey_no_panic _ _)

/-- A key in the manager's hands. -/
def Manager.key (m : Manager) (v : Nat) (r : Role) : Option Key :=
  (m.get? v).map (fun p => match r with | .attester => p.attestation | .proposer => p.proposal)

/-- The request to sign with that key. -/
def signAsk (r : Role) (v slot : Nat) : Ask :=
  match r with | .attester => .vote v slot | .proposer => .block v slot

/-- The request concerns that key. -/
def Concerns (v : Nat) (r : Role) (a : Ask) : Prop := a = .prepare a.slot ∨ a = signAsk r v a.slot

instance (v : Nat) (r : Role) (a : Ask) : Decidable (Concerns v r a) := by
  unfold Concerns; infer_instance

theorem get?_map {α β : Type} (f : α → β) (m : AMap Nat α) (v : Nat) :
    AMap.get? (m.map (fun e => (e.1, f e.2))) v = (m.get? v).map f := by
  induction m with
  | nil => rfl
  | cons x m ih =>
    obtain ⟨a, b⟩ := x
    rw [List.map_cons, AMap.get?_cons, AMap.get?_cons]
    split
    · rfl
    · exact ih

/-- A request changes the keys it concerns, by advancing them. -/
theorem key_step (m : Manager) (a : Ask) (v : Nat) (r : Role) :
    (m.step a).1.key v r = (m.key v r).map (fun k =>
      if Concerns v r a then (advanceLoop k (a.slot % 2 ^ 32)).1 else k) := by
  have hsk : ∀ k s, (signKey k s).1 = (advanceLoop k s).1 := by
    intro k s
    unfold signKey
    rw [advanceKey_loop]
    generalize advanceLoop k s = x
    obtain ⟨k', b⟩ := x
    cases b <;> rfl
  cases a with
  | prepare s =>
    have hc : Concerns v r (.prepare s) := .inl rfl
    simp only [Manager.step, Manager.key, Manager.prepare, hc, if_true, Ask.slot]
    rw [get?_map (f := fun p : Pair => (⟨(advanceKey p.attestation (s % 2 ^ 32)).1,
      (advanceKey p.proposal (s % 2 ^ 32)).1⟩ : Pair))]
    cases m.get? v with
    | none => rfl
    | some p => cases r <;> simp [advanceKey_loop]
  | vote w s =>
    have hc : Concerns v r (.vote w s) ↔ w = v ∧ r = .attester := by
      cases r <;> simp [Concerns, signAsk, Ask.slot]
    simp only [Manager.step, Manager.key, Ask.slot, hc]
    cases hw : m.get? w with
    | none =>
      simp only
      by_cases e : w = v
      · subst e; rw [hw]; rfl
      · cases m.get? v <;> simp [e]
    | some p =>
      simp only [AMap.get?_insert]
      by_cases e : w = v
      · subst e
        cases r <;> simp [hw, hsk]
      · cases m.get? v <;> simp [e, Ne.symm e]
  | block w s =>
    have hc : Concerns v r (.block w s) ↔ w = v ∧ r = .proposer := by
      cases r <;> simp [Concerns, signAsk, Ask.slot]
    simp only [Manager.step, Manager.key, Ask.slot, hc]
    cases hw : m.get? w with
    | none =>
      simp only
      by_cases e : w = v
      · subst e; rw [hw]; rfl
      · cases m.get? v <;> simp [e]
    | some p =>
      simp only [AMap.get?_insert]
      by_cases e : w = v
      · subst e
        cases r <;> simp [hw, hsk]
      · cases m.get? v <;> simp [e, Ne.symm e]

/-- What comes of a request to sign. -/
theorem reply_step {m : Manager} {v : Nat} {r : Role} {k : Key} (h : m.key v r = some k) (u : Nat) :
    (m.step (signAsk r v u)).2 =
      if (advanceLoop k (u % 2 ^ 32)).2 then .signed else .exhausted := by
  have hsk : ∀ s, (signKey k s).2 = if (advanceLoop k s).2 then .signed else .exhausted := by
    intro s
    unfold signKey
    rw [advanceKey_loop]
    have := advanceLoop_prepared k s
    generalize advanceLoop k s = x at this
    obtain ⟨k', b⟩ := x
    cases b with
    | false => rfl
    | true => simp [Key.sign, this rfl]
  unfold Manager.key at h
  cases hp : m.get? v with
  | none => rw [hp] at h; cases h
  | some p =>
    rw [hp] at h
    cases r with
    | attester =>
      simp only [Option.map_some, Option.some.injEq] at h
      simp only [signAsk, Manager.step, hp, h, hsk]
    | proposer =>
      simp only [Option.map_some, Option.some.injEq] at h
      simp only [signAsk, Manager.step, hp, h, hsk]

/-- The window stays behind the requests. -/
theorem key_run {v : Nat} {r : Role} {w : Nat} (hw : 0 < w) :
    ∀ (asks : List Ask) (m : Manager) (k : Key) (M : Nat), m.key v r = some k → k.width = w →
    k.left * w ≤ M → (k.left = k.first ∨ (k.left + 1) * w ≤ M) →
    (∀ a ∈ asks, a.slot < 2 ^ 32) → (∀ a ∈ asks, k.first * w ≤ a.slot) →
    (∀ a ∈ asks, M ≤ a.slot + w) →
    asks.Pairwise (fun a b => a.slot ≤ b.slot + w) →
    ∃ k' M', (m.run asks).1.key v r = some k' ∧ k'.width = w ∧ k'.first = k.first ∧
      k'.stop = k.stop ∧ (k'.left = k.first ∨ (k'.left + 1) * w ≤ M') ∧
      (M' = M ∨ ∃ a ∈ asks, M' = a.slot)
  | [], m, k, M, hk, hkw, _, hM, _, _, _, _ => ⟨k, M, hk, hkw, rfl, rfl, hM, .inl rfl⟩
  | a :: as, m, k, M, hk, hkw, h0, hM, h32, hf, ho, hp => by
    have ha := h32 a List.mem_cons_self
    have hfa := hf a List.mem_cons_self
    have hoa := ho a List.mem_cons_self
    obtain ⟨hp1, hp2⟩ := List.pairwise_cons.1 hp
    have hge : k.left * w ≤ a.slot := by
      rcases hM with e | e
      · rw [e]; exact hfa
      · rw [Nat.add_mul, Nat.one_mul] at e
        omega
    have hks := key_step m a v r
    rw [hk, Option.map_some] at hks
    by_cases hc : Concerns v r a
    · rw [if_pos hc, Nat.mod_eq_of_lt ha] at hks
      obtain ⟨l, b, e1, e2, e3, -, -⟩ := advanceLoop_ahead _ k a.slot (Nat.le_refl _) (hkw ▸ hw)
        (hkw.symm ▸ hge)
      rw [e1] at hks
      rw [hkw] at e3
      by_cases hm : M ≤ a.slot
      · obtain ⟨k', M', g1, g2, g3, g4, g5, g6⟩ := key_run hw as _ { k with left := l } a.slot hks hkw
          (by
            dsimp only
            rcases e3 with rfl | e3
            · exact hge
            · rw [Nat.add_mul] at e3
              omega)
          (by
            dsimp only
            rcases e3 with rfl | e3
            · rcases hM with e | e
              · exact .inl e
              · exact .inr (by omega)
            · exact .inr e3)
          (fun b hb => h32 b (List.mem_cons_of_mem _ hb)) (fun b hb => hf b (List.mem_cons_of_mem _ hb))
          hp1 hp2
        refine ⟨k', M', g1, g2, g3, g4, g5, .inr ?_⟩
        rcases g6 with rfl | ⟨b, hb, rfl⟩
        · exact ⟨a, List.mem_cons_self, rfl⟩
        · exact ⟨b, List.mem_cons_of_mem _ hb, rfl⟩
      · obtain ⟨k', M', g1, g2, g3, g4, g5, g6⟩ := key_run hw as _ { k with left := l } M hks hkw
          (by
            dsimp only
            rcases e3 with rfl | e3
            · exact h0
            · rw [Nat.add_mul] at e3
              omega)
          (by
            dsimp only
            rcases e3 with rfl | e3
            · exact hM
            · exact .inr (by omega))
          (fun b hb => h32 b (List.mem_cons_of_mem _ hb)) (fun b hb => hf b (List.mem_cons_of_mem _ hb))
          (fun b hb => ho b (List.mem_cons_of_mem _ hb)) hp2
        refine ⟨k', M', g1, g2, g3, g4, g5, ?_⟩
        rcases g6 with rfl | ⟨b, hb, rfl⟩
        · exact .inl rfl
        · exact .inr ⟨b, List.mem_cons_of_mem _ hb, rfl⟩
    · rw [if_neg hc] at hks
      obtain ⟨k', M', g1, g2, g3, g4, g5, g6⟩ := key_run hw as _ k M hks hkw h0 hM
        (fun b hb => h32 b (List.mem_cons_of_mem _ hb)) (fun b hb => hf b (List.mem_cons_of_mem _ hb))
        (fun b hb => ho b (List.mem_cons_of_mem _ hb)) hp2
      refine ⟨k', M', g1, g2, g3, g4, g5, ?_⟩
      rcases g6 with rfl | ⟨b, hb, rfl⟩
      · exact .inl rfl
      · exact .inr ⟨b, List.mem_cons_of_mem _ hb, rfl⟩

/-- **C96, once active.** A key that was fresh when the node started signs every slot of its activation
interval, if the node is asked for nothing before that interval, and for no slot that lies more than a
bottom tree (65536 slots) before one it was asked for earlier.
Missing: nodes started before the activation interval, for which it is false (`C96_false`). -/
theorem C96_signs_partial {m : Manager} {v : Nat} {r : Role} {k : Key} (hk : m.key v r = some k)
    (hf : Fresh k) (asks : List Ask) {u : Nat} (hu : Active k u) (hu32 : u < 2 ^ 32)
    (h32 : ∀ a ∈ asks, a.slot < 2 ^ 32) (hstart : ∀ a ∈ asks, k.first * k.width ≤ a.slot)
    (hord : (asks ++ [signAsk r v u]).Pairwise (fun a b => a.slot ≤ b.slot + k.width)) :
    ((m.run asks).1.step (signAsk r v u)).2 = .signed := by
  have hsu : (signAsk r v u).slot = u := by cases r <;> rfl
  obtain ⟨hp1, -, hp2⟩ := List.pairwise_append.1 hord
  obtain ⟨k', M', g1, g2, g3, g4, g5, g6⟩ := key_run hf.width asks m k (k.first * k.width) hk rfl
    (Nat.le_of_eq (by rw [hf.left])) (.inl hf.left) h32 hstart (fun a ha => by have := hstart a ha; omega) hp1
  rw [reply_step g1, Nat.mod_eq_of_lt hu32]
  have hge : k'.left * k'.width ≤ u := by
    rw [g2]
    rcases g5 with e | e
    · rw [e]; exact hu.1
    · rw [Nat.add_mul, Nat.one_mul] at e
      rcases g6 with rfl | ⟨a, ha, rfl⟩
      · have := hu.1; omega
      · have := hp2 a ha _ (List.mem_singleton_self _)
        rw [hsu] at this
        omega
  obtain ⟨l, b, e1, -, -, -, e5⟩ := advanceLoop_ahead _ k' u (Nat.le_refl _) (g2 ▸ hf.width) hge
  rw [e1, e5 (by rw [g2, g4]; exact hu.2)]
  rfl

/-- The window never moves back. -/
theorem key_mono {v : Nat} {r : Role} : ∀ (asks : List Ask) (m : Manager) (k : Key),
    m.key v r = some k → 0 < k.width → ∃ k', (m.run asks).1.key v r = some k' ∧
      k'.width = k.width ∧ k'.stop = k.stop ∧ k.left ≤ k'.left
  | [], m, k, hk, _ => ⟨k, hk, rfl, rfl, Nat.le_refl _⟩
  | a :: as, m, k, hk, hw => by
    have hks := key_step m a v r
    rw [hk, Option.map_some] at hks
    by_cases hc : Concerns v r a
    · rw [if_pos hc] at hks
      by_cases hs : k.left * k.width ≤ a.slot % 2 ^ 32
      · obtain ⟨l, b, e1, e2, -⟩ := advanceLoop_ahead _ k _ (Nat.le_refl _) hw hs
        rw [e1] at hks
        obtain ⟨k', g1, g2, g3, g4⟩ := key_mono as _ _ hks hw
        exact ⟨k', g1, g2, g3, Nat.le_trans e2 g4⟩
      · rw [advanceLoop_behind _ k _ (Nat.le_refl _) hw (by omega)] at hks
        obtain ⟨k', g1, g2, g3, g4⟩ := key_mono as _ _ hks hw
        exact ⟨k', g1, g2, g3, Nat.le_trans (Nat.le_max_left _ _) g4⟩
    · rw [if_neg hc] at hks
      exact key_mono as _ _ hks hw

/-- **C96 is false.** If a node is started before a key's activation interval, which consists of more
than two bottom trees, the key cannot sign any slot before the last two of them: the search for the
window runs forward to the end. -/
theorem C96_false {m : Manager} {v : Nat} {r : Role} {k : Key} (hk : m.key v r = some k)
    (hf : Fresh k) {s : Nat} (hs : s < 2 ^ 32) (hb : s < k.first * k.width) (asks : List Ask) {u : Nat}
    (hu : u < (k.stop - 2) * k.width) (hu32 : u < 2 ^ 32) :
    ((m.run (.prepare s :: asks)).1.step (signAsk r v u)).2 = .exhausted := by
  have hks := key_step m (.prepare s) v r
  rw [hk, Option.map_some, if_pos (.inl rfl)] at hks
  simp only [Ask.slot, Nat.mod_eq_of_lt hs] at hks
  rw [advanceLoop_behind _ k _ (Nat.le_refl _) hf.width (by rw [hf.left]; exact hb)] at hks
  obtain ⟨k', g1, g2, g3, g4⟩ := key_mono asks _ _ hks hf.width
  have g1 : (m.run (.prepare s :: asks)).1.key v r = some k' := g1
  dsimp only at g2 g4
  rw [reply_step g1, Nat.mod_eq_of_lt hu32]
  have hlt : u < k'.left * k'.width := by
    rw [g2]
    have : (k.stop - 2) * k.width ≤ k'.left * k.width :=
      Nat.mul_le_mul_right _ (Nat.le_trans (Nat.le_max_right _ _) g4)
    omega
  rw [advanceLoop_behind _ k' u (Nat.le_refl _) (g2 ▸ hf.width) hlt]
  rfl

/-- A key of four bottom trees, active from the start. -/
def wKey : Key := ⟨65536, 0, 4, 0⟩
/-- The same, active later. -/
def wLate : Key := ⟨65536, 2, 6, 2⟩

/-- Validator 3 has been voting and proposing, across the end of a window; its keys sign on. -/
example : ∃ (m : Manager) (asks : List Ask), m.key 3 .attester = some wKey ∧ Fresh wKey ∧
    Active wKey 140000 ∧ (∀ a ∈ asks, a.slot < 2 ^ 32) ∧
    (∀ a ∈ asks, wKey.first * wKey.width ≤ a.slot) ∧
    (asks ++ [signAsk .attester 3 140000]).Pairwise (fun a b => a.slot ≤ b.slot + wKey.width) ∧
    ((m.run asks).1.step (signAsk .attester 3 140000)).2 = .signed := by
  have hf : Fresh wKey := ⟨by decide, by decide, rfl⟩
  have ha : Active wKey 140000 := by unfold Active; decide
  have h1 : ∀ a ∈ [Ask.prepare 0, .vote 3 131071, .prepare 131072, .vote 3 131071, .block 3 131072,
    .vote 5 131072, .prepare 140001], a.slot < 2 ^ 32 := by decide
  have h2 : ∀ a ∈ [Ask.prepare 0, .vote 3 131071, .prepare 131072, .vote 3 131071, .block 3 131072,
    .vote 5 131072, .prepare 140001], wKey.first * wKey.width ≤ a.slot := by decide
  have h3 : ([Ask.prepare 0, .vote 3 131071, .prepare 131072, .vote 3 131071, .block 3 131072,
    .vote 5 131072, .prepare 140001] ++ [signAsk .attester 3 140000]).Pairwise
      (fun a b => a.slot ≤ b.slot + wKey.width) := by decide
  have hk : Manager.key [(3, ⟨wKey, wKey⟩)] 3 .attester = some wKey := rfl
  exact ⟨[(3, ⟨wKey, wKey⟩)], _, hk, hf, ha, h1, h2, h3,
    C96_signs_partial hk hf _ ha (by decide) h1 h2 h3⟩

/-- A node started in slot 0 with keys that are active from slot 131072 on cannot sign then. -/
example : ∃ m : Manager, m.key 3 .attester = some wLate ∧ Fresh wLate ∧ Active wLate 131072 ∧
    ((m.run [.prepare 0]).1.step (signAsk .attester 3 131072)).2 = .exhausted :=
  ⟨[(3, ⟨wLate, wLate⟩)], rfl, ⟨by decide, by decide, rfl⟩, by unfold Active; decide,
    C96_false rfl ⟨by decide, by decide, rfl⟩ (by decide) (by decide) [] (by decide) (by decide)⟩

end Verif.Keys
