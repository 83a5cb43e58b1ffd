import Verif.Model.Gossip

/-
C52 — gossip message ids collide only for equal messages.

`Meaning` says what the id is supposed to identify: whether the payload decompresses, the topic, and the
decompressed payload (or the raw bytes when it does not decompress).  Nothing is assumed of the hash
function; a coincidence of ids of two different messages is turned into two explicit different inputs
with the same hash.  The only hypothesis is that topic names are shorter than 2^64 bytes.
-/

namespace Verif.Net

/-- The content of a message that can be decompressed and announces at most 10 MiB. -/
def plain (Z : RawSnappy) (data : Bytes) : Option Bytes :=
  (Z.len data).bind (fun n => if n ≤ 10485760 then Z.dec data else none)

theorem plain_eq (Z : RawSnappy) (data : Bytes) : plain Z data = decompressMessage Z data := by
  unfold plain decompressMessage
  have hmax : maxPayload = 10485760 := by unfold maxPayload; rfl
  cases Z.len data with
  | none => rfl
  | some n =>
    show (if n ≤ 10485760 then Z.dec data else none) = if n > maxPayload then none else Z.dec data
    by_cases h : n ≤ 10485760
    · rw [if_pos h, if_neg (by omega)]
    · rw [if_neg h, if_pos (by omega)]

/-- What a message id stands for: (decompresses?, topic, content). -/
def Meaning (Z : RawSnappy) (topic data : Bytes) : Bool × Bytes × Bytes :=
  match plain Z data with
  | some d => (true, topic, d)
  | none => (false, topic, data)

theorem leBytes64_length (n : Nat) : (leBytes64 n).length = 8 := by simp [leBytes64]

/-- Eight little-endian bytes determine a 64-bit number. -/
theorem leBytes64_inj {a b : Nat} (ha : a < 2 ^ 64) (hb : b < 2 ^ 64)
    (h : leBytes64 a = leBytes64 b) : a = b := by
  have key : ∀ n, (leBytes64 n).map UInt8.toNat
      = (List.range 8).map (fun i => n / 256 ^ i % 256) := by
    intro n
    simp only [leBytes64, List.map_map]
    apply List.map_congr_left
    intro i _
    simp [UInt8.toNat_ofNat']
  have h2 := key a
  rw [h, key b] at h2
  have hr : List.range 8 = [0, 1, 2, 3, 4, 5, 6, 7] := by decide
  rw [hr] at h2
  simp only [List.map_cons, List.map_nil, List.cons.injEq, and_true, Nat.reducePow,
    Nat.div_one] at h2
  omega

theorem input_inj {Z : RawSnappy} {t1 d1 t2 d2 : Bytes} (h1 : t1.length < 2 ^ 64)
    (h2 : t2.length < 2 ^ 64) (h : messageIdInput Z t1 d1 = messageIdInput Z t2 d2) :
    Meaning Z t1 d1 = Meaning Z t2 d2 := by
  have key : ∀ (p q a b : Bytes), p.length = 4 → q.length = 4 →
      p ++ leBytes64 t1.length ++ t1 ++ a = q ++ leBytes64 t2.length ++ t2 ++ b →
      p = q ∧ t1 = t2 ∧ a = b := by
    intro p q a b hp hq he
    simp only [List.append_assoc] at he
    obtain ⟨e1, e2⟩ := List.append_inj he (by omega)
    obtain ⟨e3, e4⟩ := List.append_inj e2 (by rw [leBytes64_length, leBytes64_length])
    obtain ⟨e5, e6⟩ := List.append_inj e4 (leBytes64_inj h1 h2 e3)
    exact ⟨e1, e5, e6⟩
  unfold messageIdInput at h
  unfold Meaning
  rw [plain_eq, plain_eq]
  match hd1 : decompressMessage Z d1, hd2 : decompressMessage Z d2 with
  | some x, some y =>
    rw [hd1, hd2] at h
    obtain ⟨_, e1, e2⟩ := key _ _ _ _ rfl rfl h
    simp only [e1, e2]
  | none, none =>
    rw [hd1, hd2] at h
    obtain ⟨_, e1, e2⟩ := key _ _ _ _ rfl rfl h
    simp only [e1, e2]
  | some x, none =>
    rw [hd1, hd2] at h
    obtain ⟨e, _⟩ := key _ _ _ _ rfl rfl h
    exact absurd e (by decide)
  | none, some y =>
    rw [hd1, hd2] at h
    obtain ⟨e, _⟩ := key _ _ _ _ rfl rfl h
    exact absurd e (by decide)

/-- Messages with the same meaning get the same id, and if two messages of different meaning get the
same id then the hash function has a collision. -/
theorem C52_ids {I : Type} (H : Bytes → I) (Z : RawSnappy) (t1 d1 t2 d2 : Bytes)
    (h1 : t1.length < 2 ^ 64) (h2 : t2.length < 2 ^ 64) :
    (Meaning Z t1 d1 = Meaning Z t2 d2 → messageId H Z t1 d1 = messageId H Z t2 d2) ∧
    (messageId H Z t1 d1 = messageId H Z t2 d2 →
      Meaning Z t1 d1 = Meaning Z t2 d2 ∨ ∃ x y : Bytes, x ≠ y ∧ H x = H y) := by
  constructor
  · intro h
    unfold Meaning at h
    rw [plain_eq, plain_eq] at h
    unfold messageId messageIdInput
    match hd1 : decompressMessage Z d1, hd2 : decompressMessage Z d2 with
    | some x, some y =>
      rw [hd1, hd2] at h
      simp only [Prod.mk.injEq, true_and] at h
      simp only [h.1, h.2]
    | none, none =>
      rw [hd1, hd2] at h
      simp only [Prod.mk.injEq, true_and] at h
      simp only [h.1, h.2]
    | some x, none => rw [hd1, hd2] at h; simp at h
    | none, some y => rw [hd1, hd2] at h; simp at h
  · intro h
    by_cases he : messageIdInput Z t1 d1 = messageIdInput Z t2 d2
    · exact Or.inl (input_inj h1 h2 he)
    · exact Or.inr ⟨_, _, he, h⟩

/-- With an injective hash (for example the identity), ids are equal exactly for equal meanings.  Two
compressed forms of one payload share an id; moving a byte between topic and payload does not. -/
def idSnappy : RawSnappy where
  len d := if d.head? = some 9 then none else some (d.length - 1)
  dec d := some d.tail

example : messageId id idSnappy [65] [1, 7, 8] = messageId id idSnappy [65] [2, 7, 8] := by
  decide +kernel
example : messageId id idSnappy [65] [1, 66, 8] ≠ messageId id idSnappy [65, 66] [1, 8] := by
  decide +kernel
example : messageId id idSnappy [65] [9, 7, 8] ≠ messageId id idSnappy [65] [1, 9, 7, 8] := by
  decide +kernel

end Verif.Net
