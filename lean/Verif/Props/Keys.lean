import Verif.Lemmas.Key
import Verif.Props.Encoding
import Verif.Props.Samples

/-!
# C25, C26, C27, C28, C52: keys and plaintext PASERK
-/

namespace Pasta

open Spec (base64url paserkText keyTypeText)

variable {P : Prims}

namespace C25

/-- Printing any key as plaintext PASERK gives `k<n>.<type>.<base64url of the raw bytes>`, and
parsing that text gives the key back. -/
theorem plaintext_roundtrip (L : P.Laws) {v : Ver} {k : Kind} (key : Key P v k) :
    ∃ s, PlaintextKey.display ⟨key⟩ = .ok s ∧
      s = paserkText v (keyTypeText k) key.toBytes.1 ∧
      PlaintextKey.parse P v k s = .ok ⟨key⟩ :=
  ⟨_, PlaintextKey.display_eq _, rfl,
    PlaintextKey.parse_ok_iff.2 ⟨key.toBytes, rfl, Key.fromBytes_toBytes L key⟩⟩

/-- The text has a fixed length for each type: `k4.secret.` and 86 characters, and so on. -/
theorem text_length {v : Ver} {k : Kind} (key : Key P v k) :
    ∃ s, PlaintextKey.display ⟨key⟩ = .ok s ∧
      s.length = (keyTypeText k).length + 4 + (4 * Spec.keyBytes v k + 2) / 3 := by
  refine ⟨_, PlaintextKey.display_eq _, ?_⟩
  unfold Spec.paserkText Spec.paserkHeader
  simp only [List.length_append, C22.text_length, key.toBytes.2, keyLen_eq]
  cases v <;> simp [Spec.paserkVersion, asc] <;> omega

example : ∃ s, PlaintextKey.display ⟨Toy.v4Secret⟩ = .ok s ∧
    PlaintextKey.parse Toy.prims .V4 .Secret s = .ok ⟨Toy.v4Secret⟩ := by
  obtain ⟨s, h1, _, h2⟩ := plaintext_roundtrip Toy.laws Toy.v4Secret
  exact ⟨s, h1, h2⟩

end C25

namespace C26

/-- Every text that parses as a plaintext key is what that key prints as (all types but V3 public). -/
theorem plaintext_canonical (L : P.Laws) {v : Ver} {k : Kind} (hk : ¬ (v = .V3 ∧ k = .Public))
    {s : Bytes} {x : PlaintextKey P v k} (h : PlaintextKey.parse P v k s = .ok x) :
    x.display = .ok s := by
  obtain ⟨b, hs, hb⟩ := PlaintextKey.parse_ok_iff.1 h
  rw [PlaintextKey.display_eq, Key.toBytes_fromBytes L hk hb, hs]

/-- V3 public keys: every text that parses is what the key prints as, or it contains the point in the
compact form of SEC1 (tag 5, then the x coordinate), and prints with tag 2 or 3 instead. -/
theorem v3_public_canonical (L : P.Laws) {s : Bytes} {x : PlaintextKey P .V3 .Public}
    (h : PlaintextKey.parse P .V3 .Public s = .ok x) :
    x.display = .ok s ∨
    ∃ xc : Bytes, xc.length = 48 ∧ s = paserkText .V3 (asc "public") (5 :: xc) ∧
      (x.display = .ok (paserkText .V3 (asc "public") (2 :: xc)) ∨
        x.display = .ok (paserkText .V3 (asc "public") (3 :: xc))) := by
  obtain ⟨b, hs, hb⟩ := PlaintextKey.parse_ok_iff.1 h
  rw [Key.fromBytes_eq_ok] at hb
  have hb : Res.okOr .invalidKey (P.p384Parse b.1) = .ok x.key.key := hb
  rw [Res.okOr_eq_ok] at hb
  have hd : x.display = .ok (paserkText .V3 (asc "public") (P.p384Compress x.key.key).1) :=
    PlaintextKey.display_eq x
  rw [hd]
  have h49 : b.1.length = 49 := b.2
  rcases L.p384Parse_form b.1 x.key.key h49 hb with he | ⟨h5, ht⟩
  · left; rw [he, hs]; rfl
  · right
    obtain ⟨b, hbl⟩ := b
    cases b with
    | nil => simp at h5
    | cons t xc =>
      simp only [List.head?_cons, Option.some.injEq] at h5
      subst h5
      simp only [List.tail_cons] at ht
      refine ⟨xc, by simpa using h49, by rw [hs]; rfl, ?_⟩
      have htag := L.p384Compress_tag x.key.key
      cases hc : (P.p384Compress x.key.key).1 with
      | nil => rw [hc] at htag; simp at htag
      | cons t ys =>
        rw [hc] at ht htag
        simp only [List.tail_cons] at ht
        subst ht
        simp only [List.head?_cons, Option.some.injEq] at htag
        rcases htag with rfl | rfl
        · exact .inl rfl
        · exact .inr rfl

/-- In any case the accepted texts are those of 49 bytes that the SEC1 decoder takes, and the
printed form of the result parses to the same key. -/
theorem v3_public_accepts_iff (L : P.Laws) (s : Bytes) (x : PlaintextKey P .V3 .Public) :
    (PlaintextKey.parse P .V3 .Public s = .ok x ↔
      ∃ b : Bytes, b.length = 49 ∧ s = paserkText .V3 (asc "public") b ∧
        P.p384Parse b = some x.key.key) ∧
    ∃ s', x.display = .ok s' ∧ PlaintextKey.parse P .V3 .Public s' = .ok x := by
  refine ⟨?_, ?_⟩
  · rw [PlaintextKey.parse_ok_iff]
    constructor
    · rintro ⟨b, hs, hb⟩
      rw [Key.fromBytes_eq_ok] at hb
      exact ⟨b.1, b.2, hs, Res.okOr_eq_ok.1 hb⟩
    · rintro ⟨b, hl, hs, hb⟩
      refine ⟨⟨b, hl⟩, hs, Key.fromBytes_eq_ok.2 (Res.okOr_eq_ok.2 hb)⟩
  · obtain ⟨s', h1, _, h2⟩ := C25.plaintext_roundtrip L x.key
    exact ⟨s', h1, h2⟩

/-- A printed secret key and a printed V3 public key meet the hypotheses. -/
example : ∃ s x, PlaintextKey.parse Toy.prims .V4 .Secret s = .ok x ∧ x.display = .ok s := by
  obtain ⟨s, h1, _, h2⟩ := C25.plaintext_roundtrip Toy.laws Toy.v4Secret
  exact ⟨s, _, h2, plaintext_canonical Toy.laws (by simp) h2⟩

example : ∃ s x, PlaintextKey.parse Toy.prims .V3 .Public s = .ok x ∧ s.length = 76 := by
  obtain ⟨s, h1, -, h2⟩ := C25.plaintext_roundtrip Toy.laws Toy.v3Secret.publicKey
  obtain ⟨s', h3, h4⟩ := C25.text_length Toy.v3Secret.publicKey
  obtain rfl : s = s' := by rw [h1] at h3; exact Res.ok.inj h3
  exact ⟨s, _, h2, h4⟩

end C26

namespace C27

/-- Building a key from its raw bytes gives the key back. -/
theorem from_to (L : P.Laws) {v : Ver} {k : Kind} (key : Key P v k) :
    Key.fromBytes P v k key.toBytes = .ok key := Key.fromBytes_toBytes L key

/-- Where construction from raw bytes succeeds, the key's raw bytes are those (all types but V3
public). -/
theorem to_from (L : P.Laws) {v : Ver} {k : Kind} (hk : ¬ (v = .V3 ∧ k = .Public))
    {b : BytesN (keyLen v k)} {key : Key P v k} (h : Key.fromBytes P v k b = .ok key) :
    key.toBytes = b := Key.toBytes_fromBytes L hk h

/-- V3 public keys: reading gives the bytes that were given, or, if these were the compact form of a
point (tag 5), its compressed form. -/
theorem v3_public_to_from (L : P.Laws) {b : BytesN (keyLen .V3 .Public)} {key : Key P .V3 .Public}
    (h : Key.fromBytes P .V3 .Public b = .ok key) :
    key.toBytes.1 = b.1 ∨
    b.1.head? = some 5 ∧ key.toBytes.1.tail = b.1.tail ∧
      (key.toBytes.1.head? = some 2 ∨ key.toBytes.1.head? = some 3) := by
  rw [Key.fromBytes_eq_ok] at h
  have h : Res.okOr .invalidKey (P.p384Parse b.1) = .ok key.key := h
  rw [Res.okOr_eq_ok] at h
  rcases L.p384Parse_form b.1 key.key b.2 h with he | ⟨h5, ht⟩
  · exact .inl he
  · exact .inr ⟨h5, ht, L.p384Compress_tag key.key⟩

/-- The public constructors for local keys, V4 seeds, V4 key pairs and V4 public keys. -/
theorem local_from_bytes (v : Ver) (b : BytesN 32) :
    (Key.localFromBytes (P := P) v b).toBytes.1 = b.1 := by cases v <;> rfl

theorem v4_secret_from_seed (seed : BytesN 32) :
    (Key.v4SecretFromSeed P seed).toBytes.1 = seed.1 ++ (P.edBytes (P.edPublic seed)).1 := rfl

theorem v4_secret_from_keypair (L : P.Laws) {b : Bytes} {key : Key P .V4 .Secret}
    (h : Key.v4SecretFromKeypair P b = .ok key) : key.toBytes.1 = b := by
  obtain ⟨x, h1, h2⟩ := Res.bind_eq_ok.1 h
  rw [Res.okOr_eq_ok, BytesN.ofBytes?_eq_some] at h1
  have : Key.fromBytes P .V4 .Secret x = .ok key := h2
  rw [Key.toBytes_fromBytes L (by simp) this, h1]

theorem v4_public_from_bytes (L : P.Laws) {b : Bytes} {key : Key P .V4 .Public}
    (h : Key.v4PublicFromBytes P b = .ok key) : key.toBytes.1 = b := by
  obtain ⟨x, h1, h2⟩ := Res.bind_eq_ok.1 h
  rw [Res.okOr_eq_ok, BytesN.ofBytes?_eq_some] at h1
  have : Key.fromBytes P .V4 .Public x = .ok key := h2
  rw [Key.toBytes_fromBytes L (by simp) this, h1]

/-- A V3 secret key built from 48 bytes has those bytes. -/
theorem v3_secret_from_bytes {b : Bytes} (hb : b.length = 48) {key : Key P .V3 .Secret}
    (h : Key.v3SecretFromBytes P b = .ok key) : key.toBytes.1 = b := by
  obtain ⟨x, h1, h2⟩ := Res.bind_eq_ok.1 h
  rw [Res.okOr_eq_ok] at h1
  have := (Key.p384ScalarFromSlice_48 (P := P) (b := ⟨b, hb⟩)).1 h1
  simp only [Res.pure_def, Res.ok.injEq] at h2
  rw [← h2]
  show x.1.1 = b
  rw [this]

/-- All public constructors give back a key from the bytes `to_bytes` returns. -/
theorem constructors_invert (L : P.Laws) :
    (∀ key : Key P .V3 .Secret, Key.v3SecretFromBytes P key.toBytes.1 = .ok key) ∧
    (∀ key : Key P .V3 .Public, Key.v3PublicFromSec1 P key.toBytes.1 = .ok key) ∧
    (∀ key : Key P .V4 .Secret, Key.v4SecretFromKeypair P key.toBytes.1 = .ok key) ∧
    (∀ key : Key P .V4 .Public, Key.v4PublicFromBytes P key.toBytes.1 = .ok key) ∧
    (∀ key : Key P .V4 .Secret, ∀ seed : BytesN 32, seed.1 = key.toBytes.1.take 32 →
      Key.v4SecretFromSeed P seed = key) ∧
    (∀ v, ∀ key : Key P v .Local, ∀ b : BytesN 32, b.1 = key.toBytes.1 →
      Key.localFromBytes v b = key) := by
  refine ⟨fun key => Key.fromBytes_toBytes L key, fun key => Key.fromBytes_toBytes L key,
    fun key => ?_, fun key => ?_, ?_, ?_⟩
  · unfold Key.v4SecretFromKeypair
    rw [(BytesN.ofBytes?_eq_some (n := 64) (x := key.toBytes)).2 rfl]
    exact Key.fromBytes_toBytes L key
  · unfold Key.v4PublicFromBytes
    rw [(BytesN.ofBytes?_eq_some (n := 32) (x := key.toBytes)).2 rfl]
    exact Key.fromBytes_toBytes L key
  · rintro ⟨key⟩ seed h
    unfold Key.v4SecretFromSeed
    congr 1
    apply Subtype.ext
    rw [h]
    show (key.1 ++ _).take 32 = key.1
    rw [List.take_append_of_le_length (by rw [key.2]; exact Nat.le_refl _), List.take_of_length_le]
    rw [key.2]; exact Nat.le_refl _
  · intro v
    cases v <;> (rintro ⟨key⟩ b h; unfold Key.localFromBytes; congr 1; exact Subtype.ext h)

/-- Two keys compare equal exactly when their raw bytes are equal. -/
theorem beq_iff_bytes {v : Ver} {k : Kind} (a b : Key P v k) :
    a.beq b = true ↔ a.toBytes.1 = b.toBytes.1 := by
  unfold Key.beq
  rw [decide_eq_true_iff]
  exact ⟨fun h => by rw [h], Subtype.ext⟩

/-- … which is the case exactly when they are the same key. -/
theorem beq_iff_eq (L : P.Laws) {v : Ver} {k : Kind} (a b : Key P v k) :
    a.beq b = true ↔ a = b := by
  rw [beq_iff_bytes]
  exact ⟨fun h => Key.toBytes_inj L (Subtype.ext h), fun h => by rw [h]⟩

/-- Equality of keys is an equivalence relation. -/
theorem beq_equivalence {v : Ver} {k : Kind} :
    Equivalence (fun a b : Key P v k => a.beq b = true) where
  refl a := (beq_iff_bytes a a).2 rfl
  symm h := (beq_iff_bytes _ _).2 ((beq_iff_bytes _ _).1 h).symm
  trans h h' := (beq_iff_bytes _ _).2 (((beq_iff_bytes _ _).1 h).trans ((beq_iff_bytes _ _).1 h'))

/-- A generated local key consists of the next 32 bytes of the random source. -/
theorem local_random (v : Ver) (rng rng' : Rng) (key : Key P v .Local) :
    Key.localRandom P v rng = .ok (key, rng') ↔ rng = key.toBytes.1 ++ rng' := by
  unfold Key.localRandom
  rw [Res.bind_eq_ok]
  constructor
  · rintro ⟨⟨b, r⟩, h1, h2⟩
    rw [fillBytes_eq_ok] at h1
    simp only [Res.pure_def, Res.ok.injEq, Prod.mk.injEq] at h2
    obtain ⟨rfl, rfl⟩ := h2
    rw [h1]; cases v <;> rfl
  · intro h
    refine ⟨(key.key, rng'), fillBytes_eq_ok.2 ?_, rfl⟩
    rw [h]; cases v <;> rfl

/-- A generated V4 secret key has as seed the next 32 bytes of the random source. -/
theorem v4_secret_random (rng rng' : Rng) (key : Key P .V4 .Secret) :
    Key.secretRandom P .V4 rng = .ok (key, rng') ↔ rng = key.toBytes.1.take 32 ++ rng' := by
  have ht : key.toBytes.1.take 32 = key.key.1 := by
    obtain ⟨key⟩ := key
    show (key.1 ++ _).take 32 = key.1
    rw [List.take_append_of_le_length (by rw [key.2]; exact Nat.le_refl _), List.take_of_length_le]
    rw [key.2]; exact Nat.le_refl _
  rw [ht]
  unfold Key.secretRandom
  rw [Res.bind_eq_ok]
  constructor
  · rintro ⟨⟨b, r⟩, h1, h2⟩
    rw [fillBytes_eq_ok] at h1
    simp only [Res.pure_def, Res.ok.injEq, Prod.mk.injEq] at h2
    obtain ⟨rfl, rfl⟩ := h2
    exact h1
  · intro h
    exact ⟨(key.key, rng'), fillBytes_eq_ok.2 h, rfl⟩

theorem p384Random_spec (rng rng' : Rng) (s : P384Scalar) :
    p384Random rng = .ok (s, rng') ↔
      ∃ skipped : List (BytesN 48), (∀ b ∈ skipped, ¬ p384ScalarOk b) ∧
        rng = (skipped.map (·.1)).flatten ++ s.1.1 ++ rng' := by
  have key : ∀ (n : Nat) (rng : Rng), rng.length ≤ n → (p384Random rng = .ok (s, rng') ↔
      ∃ skipped : List (BytesN 48), (∀ b ∈ skipped, ¬ p384ScalarOk b) ∧
        rng = (skipped.map (·.1)).flatten ++ s.1.1 ++ rng') := by
    intro n
    induction n with
    | zero =>
      intro rng h
      unfold p384Random
      rw [dif_neg (by omega)]
      simp only [reduceCtorEq, false_iff, not_exists, not_and]
      intro sk _ he
      have := congrArg List.length he
      simp only [List.length_append, s.1.2] at this
      omega
    | succ n ih =>
      intro rng h
      unfold p384Random
      by_cases h48 : 48 ≤ rng.length
      · rw [dif_pos h48]
        dsimp only
        by_cases hb : p384ScalarOk ⟨rng.take 48, by simp; omega⟩
        · rw [dif_pos hb]
          simp only [Res.ok.injEq, Prod.mk.injEq]
          constructor
          · rintro ⟨rfl, rfl⟩
            exact ⟨[], by simp, by simp⟩
          · rintro ⟨sk, h1, h2⟩
            rcases sk with _ | ⟨b, sk⟩
            · simp only [List.map_nil, List.flatten_nil, List.nil_append] at h2
              have h3 : rng.take 48 = s.1.1 := by
                rw [h2, List.take_append_of_le_length (by rw [s.1.2]; exact Nat.le_refl _),
                  List.take_of_length_le (by rw [s.1.2]; exact Nat.le_refl _)]
              have h4 : rng.drop 48 = rng' := by
                rw [h2]
                have := List.drop_left (l₁ := s.1.1) (l₂ := rng')
                rwa [s.1.2] at this
              exact ⟨Subtype.ext (Subtype.ext h3), h4⟩
            · exfalso
              simp only [List.map_cons, List.flatten_cons, List.append_assoc] at h2
              have h3 : rng.take 48 = b.1 := by
                rw [h2, List.take_append_of_le_length (by rw [b.2]; exact Nat.le_refl _),
                  List.take_of_length_le (by rw [b.2]; exact Nat.le_refl _)]
              apply h1 b (by simp)
              have : (⟨rng.take 48, by simp; omega⟩ : BytesN 48) = b := Subtype.ext h3
              rwa [this] at hb
        · rw [dif_neg hb, ih (rng.drop 48) (by simp; omega)]
          constructor
          · rintro ⟨sk, h1, h2⟩
            refine ⟨⟨rng.take 48, by simp; omega⟩ :: sk, ?_, ?_⟩
            · intro b hm
              rcases List.mem_cons.1 hm with rfl | hm
              · exact hb
              · exact h1 b hm
            · simp only [List.map_cons, List.flatten_cons, List.append_assoc]
              rw [← List.append_assoc (List.flatten _), ← h2, List.take_append_drop]
          · rintro ⟨sk, h1, h2⟩
            rcases sk with _ | ⟨b, sk⟩
            · exfalso
              simp only [List.map_nil, List.flatten_nil, List.nil_append] at h2
              have h3 : rng.take 48 = s.1.1 := by
                rw [h2, List.take_append_of_le_length (by rw [s.1.2]; exact Nat.le_refl _),
                  List.take_of_length_le (by rw [s.1.2]; exact Nat.le_refl _)]
              apply hb
              have : (⟨rng.take 48, by simp; omega⟩ : BytesN 48) = s.1 := Subtype.ext h3
              rw [this]; exact s.2
            · refine ⟨sk, fun b hm => h1 b (by simp [hm]), ?_⟩
              rw [h2]
              simp only [List.map_cons, List.flatten_cons, List.append_assoc]
              have := List.drop_left (l₁ := b.1) (l₂ := (sk.map (·.1)).flatten ++ (s.1.1 ++ rng'))
              rwa [b.2] at this
      · rw [dif_neg h48]
        simp only [reduceCtorEq, false_iff, not_exists, not_and]
        intro sk _ he
        have := congrArg List.length he
        simp only [List.length_append, s.1.2] at this
        omega
  exact key rng.length rng (Nat.le_refl _)

/-- A generated V3 secret key is the first 48-byte block of the random source that is a scalar in
`[1, n-1]`; the blocks before it are discarded. -/
theorem v3_secret_random (rng rng' : Rng) (key : Key P .V3 .Secret) :
    Key.secretRandom P .V3 rng = .ok (key, rng') ↔
      ∃ skipped : List (BytesN 48), (∀ b ∈ skipped, ¬ p384ScalarOk b) ∧
        rng = (skipped.map (·.1)).flatten ++ key.toBytes.1 ++ rng' := by
  show (p384Random rng >>= _) = _ ↔ _
  rw [Res.bind_eq_ok]
  constructor
  · rintro ⟨⟨s, r⟩, h1, h2⟩
    simp only [Res.pure_def, Res.ok.injEq, Prod.mk.injEq] at h2
    obtain ⟨rfl, rfl⟩ := h2
    exact (p384Random_spec rng r s).1 h1
  · intro h
    exact ⟨(key.key, rng'), (p384Random_spec rng rng' key.key).2 h, rfl⟩

-- both outcomes of key equality occur
example : Toy.v4Secret.beq Toy.v4Secret = true ∧
    (Toy.localKey .V4).beq ⟨BytesN.fill 32 0⟩ = false := by
  constructor
  · exact (beq_iff_bytes _ _).2 rfl
  · rw [← Bool.not_eq_true, beq_iff_bytes]
    show ¬ Toy.key32.1 = (BytesN.fill 32 0).1
    decide

example : ∃ key rng', Key.secretRandom Toy.prims .V3 (Toy.v3Scalar.1.1 ++ [1, 2]) = .ok (key, rng') :=
  ⟨Toy.v3Secret, [1, 2], (v3_secret_random _ _ _).2 ⟨[], by simp, rfl⟩⟩

/-- The constructors succeed: the hypotheses of the theorems above are met. -/
example : (∃ key, Key.fromBytes Toy.prims .V4 .Secret Toy.v4Secret.toBytes = .ok key) ∧
    (∃ key, Key.fromBytes Toy.prims .V3 .Public Toy.v3Secret.publicKey.toBytes = .ok key) ∧
    (∃ key, Key.v4SecretFromKeypair Toy.prims Toy.v4Secret.toBytes.1 = .ok key) ∧
    (∃ key, Key.v4PublicFromBytes Toy.prims Toy.v4Secret.publicKey.toBytes.1 = .ok key) ∧
    ∃ key, Key.v3SecretFromBytes Toy.prims Toy.v3Secret.toBytes.1 = .ok key := by
  refine ⟨⟨_, from_to Toy.laws _⟩, ⟨_, from_to Toy.laws _⟩, ⟨Toy.v4Secret, ?_⟩,
    ⟨Toy.v4Secret.publicKey, ?_⟩, ⟨Toy.v3Secret, ?_⟩⟩
  · exact (constructors_invert Toy.laws).2.2.1 _
  · exact (constructors_invert Toy.laws).2.2.2.1 _
  · exact (constructors_invert Toy.laws).1 _

end C27

namespace C28

/-- A V4 secret key is accepted exactly as 64 bytes whose second half is a valid public key and the
one derived from the first half; everything else is `InvalidKey`. -/
theorem v4_secret_iff (L : P.Laws) (b : Bytes) (key : Key P .V4 .Secret) :
    Key.v4SecretFromKeypair P b = .ok key ↔
      b = key.key.1 ++ (P.edBytes (P.edPublic key.key)).1 := by
  constructor
  · intro h
    rw [← C27.v4_secret_from_keypair L h]
    rfl
  · intro h
    have := (C27.constructors_invert L).2.2.1 key
    rw [h]; exact this

theorem v4_public_iff (b : Bytes) (key : Key P .V4 .Public) :
    Key.v4PublicFromBytes P b = .ok key ↔
      ∃ h : b.length = 32, P.edParse ⟨b, h⟩ = some key.key := by
  unfold Key.v4PublicFromBytes
  rw [Res.bind_eq_ok]
  constructor
  · rintro ⟨x, h1, h2⟩
    rw [Res.okOr_eq_ok, BytesN.ofBytes?_eq_some] at h1
    obtain ⟨pk, h3, h4⟩ := Res.bind_eq_ok.1 h2
    rw [Res.okOr_eq_ok] at h3
    simp only [Res.pure_def, Res.ok.injEq] at h4
    subst h1
    exact ⟨x.2, by rw [← h4]; exact h3⟩
  · rintro ⟨h, hp⟩
    refine ⟨⟨b, h⟩, ?_, ?_⟩
    · rw [(BytesN.ofBytes?_eq_some (x := ⟨b, h⟩)).2 rfl]; rfl
    · rw [hp]; rfl

theorem v3_secret_iff (b : BytesN 48) (key : Key P .V3 .Secret) :
    Key.v3SecretFromBytes P b.1 = .ok key ↔
      key.key.1 = b ∧ 0 < beNat b.1 ∧ beNat b.1 < p384Order := by
  unfold Key.v3SecretFromBytes
  rw [Res.bind_eq_ok]
  constructor
  · rintro ⟨s, h1, h2⟩
    rw [Res.okOr_eq_ok, Key.p384ScalarFromSlice_48] at h1
    simp only [Res.pure_def, Res.ok.injEq] at h2
    subst h2
    exact ⟨h1, by rw [← h1]; exact s.2⟩
  · rintro ⟨h1, _⟩
    exact ⟨key.key, by rw [Res.okOr_eq_ok, Key.p384ScalarFromSlice_48]; exact h1, rfl⟩

/-- A constructor's result is a key or `InvalidKey`: no panic, no other error. -/
def KeyOrInvalid {α : Type} (r : Res α) : Prop := (∃ a, r = .ok a) ∨ r = .err .invalidKey

theorem keyOrInvalid_okOr {α : Type} (o : Option α) : KeyOrInvalid (Res.okOr .invalidKey o) := by
  cases o
  · exact .inr rfl
  · exact .inl ⟨_, rfl⟩

theorem keyOrInvalid_bind {α β : Type} {r : Res α} {f : α → Res β} (h : KeyOrInvalid r)
    (hf : ∀ a, KeyOrInvalid (f a)) : KeyOrInvalid (r >>= f) := by
  rcases h with ⟨a, rfl⟩ | rfl
  · exact hf a
  · exact .inr rfl

/-- All key constructors return a key or `InvalidKey`, for every input. -/
theorem constructors_total (P : Prims) :
    (∀ b, KeyOrInvalid (Key.v3SecretFromBytes P b)) ∧
    (∀ b, KeyOrInvalid (Key.v3SecretFromPem P b)) ∧
    (∀ b, KeyOrInvalid (Key.v3PublicFromPem P b)) ∧
    (∀ b, KeyOrInvalid (Key.v3PublicFromSec1 P b)) ∧
    (∀ b, KeyOrInvalid (Key.v4SecretFromKeypair P b)) ∧
    (∀ b, KeyOrInvalid (Key.v4PublicFromBytes P b)) ∧
    (∀ v k b, KeyOrInvalid (Key.fromBytes P v k b)) := by
  have hp : ∀ {α : Type} (a : α), KeyOrInvalid (pure a : Res α) := fun a => .inl ⟨a, rfl⟩
  refine ⟨fun b => ?_, fun b => ?_, fun b => ?_, fun b => ?_, fun b => ?_, fun b => ?_,
    fun v k b => Key.fromBytes_cases b⟩
  · exact keyOrInvalid_bind (keyOrInvalid_okOr _) fun _ => hp _
  · exact keyOrInvalid_bind (keyOrInvalid_okOr _) fun _ => hp _
  · exact keyOrInvalid_bind (keyOrInvalid_okOr _) fun _ => hp _
  · exact keyOrInvalid_bind (keyOrInvalid_okOr _) fun _ => hp _
  · exact keyOrInvalid_bind (keyOrInvalid_okOr _) fun _ =>
      keyOrInvalid_bind (keyOrInvalid_okOr _) fun _ => hp _
  · exact keyOrInvalid_bind (keyOrInvalid_okOr _) fun _ =>
      keyOrInvalid_bind (keyOrInvalid_okOr _) fun _ => hp _

/-- So malformed V4 secret keys are `InvalidKey`: wrong length, or halves that do not match. -/
theorem v4_secret_invalid (L : P.Laws) (b : Bytes)
    (h : ∀ seed : BytesN 32, b ≠ seed.1 ++ (P.edBytes (P.edPublic seed)).1) :
    Key.v4SecretFromKeypair P b = .err .invalidKey := by
  rcases (constructors_total P).2.2.2.2.1 b with ⟨key, hk⟩ | hk
  · exact absurd ((v4_secret_iff L b key).1 hk) (h key.key)
  · exact hk

theorem v4_public_invalid (b : Bytes) (h : ∀ hl : b.length = 32, P.edParse ⟨b, hl⟩ = none) :
    Key.v4PublicFromBytes P b = .err .invalidKey := by
  rcases (constructors_total P).2.2.2.2.2.1 b with ⟨key, hk⟩ | hk
  · obtain ⟨hl, hp⟩ := (v4_public_iff b key).1 hk
    rw [h hl] at hp; simp at hp
  · exact hk

theorem v3_secret_invalid (b : BytesN 48) (h : beNat b.1 = 0 ∨ p384Order ≤ beNat b.1) :
    Key.v3SecretFromBytes P b.1 = .err .invalidKey := by
  rcases (constructors_total P).1 b.1 with ⟨key, hk⟩ | hk
  · have := ((v3_secret_iff b key).1 hk).2
    omega
  · exact hk

/-- The plaintext PASERK parser applies the same checks. -/
theorem plaintext_invalid_key {v : Ver} {k : Kind} (b : BytesN (keyLen v k))
    (h : Key.fromBytes P v k b = .err .invalidKey) :
    PlaintextKey.parse P v k (paserkText v (keyTypeText k) b.1) = .err .invalidKey := by
  rw [PlaintextKey.parse_eq]
  unfold Spec.paserkText
  rw [stripPrefix_append]
  simp only [Res.okOr_some, Res.ok_bind]
  rw [readB64_eq_ok.2 rfl]
  simp only [Res.ok_bind]
  rw [h]; rfl

/-- Generated V3 keys are always valid scalars, so all round trips apply to them. -/
theorem v3_random_valid {rng rng' : Rng} {key : Key P .V3 .Secret}
    (_ : Key.secretRandom P .V3 rng = .ok (key, rng')) :
    0 < beNat key.toBytes.1 ∧ beNat key.toBytes.1 < p384Order := key.key.2

-- a mismatched pair is refused, a matching pair accepted
example : Key.v4SecretFromKeypair Toy.prims (Toy.key32.1 ++ List.replicate 32 0) =
    .err .invalidKey := by
  apply v4_secret_invalid Toy.laws
  intro seed he
  have h1 : Toy.key32.1 = seed.1 ∧ List.replicate 32 (0 : UInt8) = (Toy.prims.edBytes (Toy.prims.edPublic seed)).1 :=
    List.append_inj he (by rw [Toy.key32.2, seed.2])
  have hs : seed = Toy.key32 := Subtype.ext h1.1.symm
  subst hs
  have h2 := h1.2
  revert h2
  decide +kernel

example : Key.v3SecretFromBytes Toy.prims (BytesN.fill 48 0).1 = .err .invalidKey :=
  v3_secret_invalid _ (.inl (by decide))

/-- 32 bytes that are no point of the toy curve, as a key and as the text of a key. -/
example : Key.v4PublicFromBytes Toy.prims (List.replicate 32 0xff) = .err .invalidKey ∧
    PlaintextKey.parse Toy.prims .V4 .Public
      (paserkText .V4 (keyTypeText .Public) (List.replicate 32 0xff)) = .err .invalidKey :=
  ⟨v4_public_invalid _ (fun _ => rfl),
    plaintext_invalid_key (v := .V4) (k := .Public) (BytesN.fill 32 0xff) rfl⟩

example : ∃ key rng', Key.secretRandom Toy.prims .V3 (Toy.v3Scalar.1.1 ++ [1, 2]) = .ok (key, rng') ∧
    0 < beNat key.toBytes.1 := by
  have h : Key.secretRandom Toy.prims .V3 (Toy.v3Scalar.1.1 ++ [1, 2]) = .ok (Toy.v3Secret, [1, 2]) :=
    (C27.v3_secret_random _ _ _).2 ⟨[], by simp, rfl⟩
  exact ⟨_, _, h, (v3_random_valid h).1⟩

end C28

namespace C52

/-- `Debug` output of a key is one constant: it shows nothing about the key. -/
theorem debug_constant {v v' : Ver} {k k' : Kind} (a : Key P v k) (b : Key P v' k') :
    a.debug = b.debug ∧ a.debug = asc "Key { .. }" := ⟨rfl, rfl⟩

-- for two different keys
example : Toy.v4Secret.debug = (Toy.localKey .V3).debug ∧ Toy.v4Secret.toBytes.1 ≠ (Toy.localKey .V3).toBytes.1 :=
  ⟨(debug_constant _ _).1, fun h => by
    have h := congrArg List.length h
    rw [Toy.v4Secret.toBytes.2, (Toy.localKey .V3).toBytes.2] at h
    exact absurd h (by decide)⟩

end C52
end Pasta
