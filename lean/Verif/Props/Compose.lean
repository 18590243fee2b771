import Verif.Model.Cache
import Verif.Props.TokenRoundtrip
import Verif.Props.KeyIds
import Verif.Props.Pie
import Verif.Props.Pbkw
import Verif.Props.Pke

/-!
# C50, C51: key rotation by id, and keys that travelled
-/

namespace Pasta

/-! ## C50 -/
namespace C50

variable {P : Prims} {v : Ver} {M F E : Type}

theorem get_insert (m : KeyCache P v) (id id' : KeyId v .Public) (key : Key P v .Public) :
    (m.insert id key).get id' = if id.beq id' then some key else m.get id' := by
  induction m with
  | nil =>
    rfl
  | cons e m ih =>
    unfold KeyCache.insert
    by_cases h1 : e.1.beq id = true
    · rw [if_pos h1]
      have h1 := (C31.eq_iff _ _).1 h1
      simp only [KeyCache.get]
      by_cases h : id.beq id' = true
      · rw [h1, if_pos h, if_pos h]
      · rw [h1, if_neg h, if_neg h, if_neg h]
    · rw [if_neg h1]
      simp only [KeyCache.get]
      by_cases h2 : e.1.beq id' = true
      · have h2' := (C31.eq_iff _ _).1 h2
        rw [if_pos h2, if_neg, if_pos h2]
        intro h
        exact h1 ((C31.eq_iff _ _).2 (h2'.trans ((C31.eq_iff _ _).1 h).symm))
      · rw [if_neg h2, ih, if_neg h2]

/-- Building the cache never fails, and it holds, for every id, the last key entered under it. -/
theorem ofKeys_get (m : KeyCache P v) (keys : List (Key P v .Public)) :
    ∃ m', m.ofKeys keys = .ok m' ∧ ∀ id key, m'.get id = some key →
      (key ∈ keys ∧ key.toId = .ok id) ∨
      ((∀ k ∈ keys, k.toId ≠ .ok id) ∧ m.get id = some key) := by
  induction keys generalizing m with
  | nil => exact ⟨m, rfl, fun id key h => .inr ⟨by simp, h⟩⟩
  | cons k ks ih =>
    obtain ⟨i, hi, -⟩ := C30.id_spec k
    obtain ⟨m', h1, h2⟩ := ih (m.insert i k)
    refine ⟨m', by simp only [KeyCache.ofKeys, hi, Res.ok_bind, h1], ?_⟩
    intro id key hg
    rcases h2 id key hg with ⟨h3, h4⟩ | ⟨h3, h4⟩
    · exact .inl ⟨.tail _ h3, h4⟩
    · rw [get_insert] at h4
      split at h4
      · rename_i he
        have he := (C31.eq_iff _ _).1 he
        subst he
        cases h4
        exact .inl ⟨.head _, hi⟩
      · rename_i he
        refine .inr ⟨?_, h4⟩
        intro k' hk' hid
        rcases List.mem_cons.1 hk' with rfl | hk'
        · rw [hi] at hid
          cases hid
          exact he ((C31.eq_iff _ _).2 rfl)
        · exact h3 k' hk' hid

theorem ofKeys_mem (m : KeyCache P v) (keys : List (Key P v .Public)) (m' : KeyCache P v)
    (h : m.ofKeys keys = .ok m') (id : KeyId v .Public)
    (hk : (∃ k ∈ keys, k.toId = .ok id) ∨ (m.get id).isSome) : (m'.get id).isSome := by
  induction keys generalizing m with
  | nil =>
    cases h
    rcases hk with ⟨k, hk, -⟩ | hk
    · simp at hk
    · exact hk
  | cons k ks ih =>
    obtain ⟨i, hi, -⟩ := C30.id_spec k
    simp only [KeyCache.ofKeys, hi, Res.ok_bind] at h
    apply ih _ h
    rw [get_insert]
    rcases hk with ⟨k', hk', hid⟩ | hk
    · rcases List.mem_cons.1 hk' with rfl | hk'
      · rw [hi] at hid
        cases hid
        right
        rw [if_pos ((C31.eq_iff _ _).2 rfl)]; rfl
      · exact .inl ⟨k', hk', hid⟩
    · right
      split <;> simp_all

/-- A key is found exactly under the ids of the registered keys, and what is found has the id that
was asked for. -/
theorem lookup (keys : List (Key P v .Public)) :
    ∃ m, KeyCache.ofKeys [] keys = .ok m ∧
      (∀ id key, m.index id = .ok key → key ∈ keys ∧ key.toId = .ok id) ∧
      (∀ id, m.index id = .panic ↔ ∀ k ∈ keys, k.toId ≠ .ok id) := by
  obtain ⟨m, h1, h2⟩ := ofKeys_get [] keys
  have h3 : ∀ id key, m.get id = some key → key ∈ keys ∧ key.toId = .ok id := by
    intro id key h
    rcases h2 id key h with h | ⟨_, h⟩
    · exact h
    · simp [KeyCache.get] at h
  refine ⟨m, h1, ?_, ?_⟩
  · intro id key h
    unfold KeyCache.index at h
    cases hg : m.get id with
    | none => rw [hg] at h; simp at h
    | some k => rw [hg] at h; cases h; exact h3 id _ hg
  · intro id
    unfold KeyCache.index
    constructor
    · intro h k hk hid
      have := ofKeys_mem [] keys m h1 id (.inl ⟨k, hk, hid⟩)
      cases hg : m.get id with
      | none => rw [hg] at this; simp at this
      | some k => rw [hg] at h; simp at h
    · intro h
      cases hg : m.get id with
      | none => rfl
      | some k => exact absurd (h3 id k hg).2 (h k (h3 id k hg).1)

/-- No two different registered keys have the same id. -/
def Distinct (keys : List (Key P v .Public)) : Prop :=
  ∀ k ∈ keys, ∀ k' ∈ keys, k.toId = k'.toId → k = k'

/-- Key rotation: whichever of the registered keys the token was signed for, if the footer carries
its id, then after printing, parsing and looking up the id the token is verified, by the signer's
key, and gives the signed message and footer. -/
theorem rotation (L : P.Laws) [Payload E] [MessageEncoding E M] [MessageDecoding E M]
    [Footer F] (kid : F → KeyId v .Public) (keys : List (Key P v .Public)) (hd : Distinct keys)
    (sk : Key P v .Secret) (hsk : sk.publicKey ∈ keys)
    (b : TokenBuilder v .Public M F E) (hkid : sk.publicKey.toId = .ok (kid b.tok.footer))
    (m f : Bytes)
    (hm : MessageEncoding.encode b.tok.encoding b.tok.message = .ok m)
    (hm' : MessageDecoding.decode (Payload.default : E) m = .ok b.tok.message)
    (hf : Footer.encode b.tok.footer = some f)
    (hf' : Footer.decode f = .ok b.tok.footer) (hp : b.sign P sk ≠ .panic) :
    ∃ cache tok, KeyCache.ofKeys [] keys = .ok cache ∧ b.sign P sk = .ok tok ∧
      cache.index (kid tok.unverifiedFooter) = .ok sk.publicKey ∧
      verifyWithCache (E := E) M kid cache tok.display = .ok
        { encoding := Payload.default, message := b.tok.message, footer := b.tok.footer } := by
  obtain ⟨cache, h1, h2, h3⟩ := lookup keys
  have hlook : cache.index (kid b.tok.footer) = .ok sk.publicKey := by
    cases hi : cache.index (kid b.tok.footer) with
    | panic => exact absurd hkid ((h3 _).1 hi _ hsk)
    | err e =>
      unfold KeyCache.index at hi
      cases hg : cache.get (kid b.tok.footer) <;> rw [hg] at hi <;> simp at hi
    | ok k =>
      obtain ⟨h4, h5⟩ := h2 _ _ hi
      rw [hd k h4 _ hsk (h5.trans hkid.symm)]
  have hrt := C02.public_roundtrip P L b sk [] m f hm hm' hf hf' hp
  obtain ⟨tok, hs, hrt⟩ := Res.bind_eq_ok.1 hrt
  obtain ⟨tok', hp, hrt⟩ := Res.bind_eq_ok.1 hrt
  have hfoot := (C19.sign_footer P b sk [] tok hs)
  refine ⟨cache, tok, h1, hs, by rw [hfoot.1]; exact hlook, ?_⟩
  unfold verifyWithCache
  rw [hp]
  simp only [Res.ok_bind]
  have : tok'.unverifiedFooter = b.tok.footer := by
    have := C19.verify_footer P tok' sk.publicKey [] _ hrt
    exact this.symm
  rw [this, hlook]
  simp only [Res.ok_bind]
  exact hrt

/-- The hypothesis `Distinct` can fail only by a collision of the id hash on two registered keys. -/
theorem distinct_or_collision (L : P.Laws) (keys : List (Key P v .Public)) :
    Distinct keys ∨ ∃ k ∈ keys, ∃ k' ∈ keys, k ≠ k' ∧
      C32.IdCollision P v (C32.hashed k) (C32.hashed k') := by
  by_cases h : ∃ k ∈ keys, ∃ k' ∈ keys, k ≠ k' ∧ C32.IdCollision P v (C32.hashed k) (C32.hashed k')
  · exact .inr h
  · left
    intro k hk k' hk' hid
    obtain ⟨i, h1, -⟩ := C30.id_spec k
    obtain ⟨j, h3, -⟩ := C30.id_spec k'
    apply Classical.byContradiction
    intro hne
    rcases C32.same_id L k k' h1 h3 (by rw [h1, h3] at hid; cases hid; rfl) with ⟨_, e⟩ | hc
    · exact hne e
    · exact h ⟨k, hk, k', hk', hne, hc⟩

/-- Whatever text is presented: if it is verified through the cache, it was verified by a
registered key whose id is the one in its footer. -/
theorem verified_by_named_key [Payload E] [MessageDecoding E M] [Footer F]
    (kid : F → KeyId v .Public) (keys : List (Key P v .Public)) (cache : KeyCache P v)
    (hc : KeyCache.ofKeys [] keys = .ok cache) (s : Bytes) (out : ValidatedToken v .Public M F E)
    (h : verifyWithCache M kid cache s = .ok out) :
    ∃ key ∈ keys, key.toId = .ok (kid out.footer) ∧
      ∃ t, SecuredToken.parse v .Public F E s = .ok t ∧ t.verify M P key = .ok out := by
  obtain ⟨cache', h1, h2, -⟩ := lookup keys
  rw [hc] at h1
  cases h1
  obtain ⟨t, ht, h⟩ := Res.bind_eq_ok.1 h
  obtain ⟨key, hk, h⟩ := Res.bind_eq_ok.1 h
  obtain ⟨h4, h5⟩ := h2 _ _ hk
  have := C19.verify_footer P t key [] out h
  exact ⟨key, h4, by rw [this]; exact h5, t, ht, h⟩

open Sample in
-- two registered keys with different ids, and a token signed by either
instance : Footer (KeyId .V4 .Public) where
  encode i := some i.id.1
  decode b := if h : b.length = 33 then .ok ⟨⟨b, h⟩⟩ else .error "length"

def toySecret2 : Key Toy.prims .V4 .Secret := ⟨BytesN.fill 32 9⟩
def toyKeys : List (Key Toy.prims .V4 .Public) := [Toy.v4Secret.publicKey, toySecret2.publicKey]

theorem toy_distinct : Distinct toyKeys := by
  have h : Toy.v4Secret.publicKey.toId ≠ toySecret2.publicKey.toId := by
    obtain ⟨i, h1, h2⟩ := C30.id_spec Toy.v4Secret.publicKey
    obtain ⟨j, h3, h4⟩ := C30.id_spec toySecret2.publicKey
    rw [h1, h3]
    intro e
    cases e
    rw [h2] at h4
    revert h4
    decide +kernel
  intro k hk k' hk' he
  simp only [toyKeys, List.mem_cons, List.not_mem_nil, or_false] at hk hk'
  rcases hk with rfl | rfl <;> rcases hk' with rfl | rfl
  · rfl
  · exact absurd he h
  · exact absurd he.symm h
  · rfl

example (sk : Key Toy.prims .V4 .Secret) (h : sk = Toy.v4Secret ∨ sk = toySecret2) :
    ∃ (i : KeyId .V4 .Public) (cache : KeyCache Toy.prims .V4)
      (tok : SecuredToken .V4 .Public (KeyId .V4 .Public) Sample.Raw),
      sk.publicKey.toId = .ok i ∧ KeyCache.ofKeys [] toyKeys = .ok cache ∧
      (⟨⟨⟨⟩, asc "hello", i⟩⟩ : TokenBuilder .V4 .Public Bytes _ Sample.Raw).sign Toy.prims sk = .ok tok ∧
      verifyWithCache (E := Sample.Raw) Bytes id cache tok.display = .ok ⟨⟨⟩, asc "hello", i⟩ := by
  obtain ⟨i, hi, -⟩ := C30.id_spec sk.publicKey
  obtain ⟨c, t, h1, h2, -, h3⟩ := rotation Toy.laws id toyKeys toy_distinct sk
    (by rcases h with rfl | rfl <;> simp [toyKeys])
    (⟨⟨⟨⟩, asc "hello", i⟩⟩ : TokenBuilder .V4 .Public Bytes (KeyId .V4 .Public) Sample.Raw) hi
    (asc "hello") i.id.1 rfl rfl rfl (dif_pos i.id.2)
    (by obtain ⟨t, h⟩ := Sample.sign_ok .V4 sk
          (⟨⟨⟨⟩, asc "hello", i⟩⟩ : TokenBuilder .V4 .Public Bytes (KeyId .V4 .Public) Sample.Raw)
          [] rfl rfl
        show TokenBuilder.signWithAssertions _ _ _ [] ≠ _
        rw [h]; simp)
  exact ⟨i, c, t, hi, h1, h2, h3⟩

/-- … which is what `verified_by_named_key` is about. -/
example : ∃ (cache : KeyCache Toy.prims .V4) (s : Bytes)
      (out : ValidatedToken .V4 .Public Bytes (KeyId .V4 .Public) Sample.Raw),
      KeyCache.ofKeys [] toyKeys = .ok cache ∧ verifyWithCache Bytes id cache s = .ok out ∧
      ∃ i, Toy.v4Secret.publicKey.toId = .ok i ∧ (cache.get i).isSome := by
  obtain ⟨i, hi, -⟩ := C30.id_spec Toy.v4Secret.publicKey
  obtain ⟨c, t, h1, -, -, h3⟩ := rotation Toy.laws id toyKeys toy_distinct Toy.v4Secret
    (by simp [toyKeys])
    (⟨⟨⟨⟩, asc "hello", i⟩⟩ : TokenBuilder .V4 .Public Bytes (KeyId .V4 .Public) Sample.Raw) hi
    (asc "hello") i.id.1 rfl rfl rfl (dif_pos i.id.2)
    (by obtain ⟨t, h⟩ := Sample.sign_ok .V4 Toy.v4Secret
          (⟨⟨⟨⟩, asc "hello", i⟩⟩ : TokenBuilder .V4 .Public Bytes (KeyId .V4 .Public) Sample.Raw)
          [] rfl rfl
        show TokenBuilder.signWithAssertions _ _ _ [] ≠ _
        rw [h]; simp)
  exact ⟨c, _, _, h1, h3, i, hi, ofKeys_mem [] toyKeys c h1 i
    (.inl ⟨_, by simp [toyKeys], hi⟩)⟩

end C50

/-! ## C51 -/
namespace C51

variable {P : Prims} {v : Ver} {k : WKind} {M F E : Type}

/-- One storage or transport of a key: printed in one of the four text forms, under any wrapping
key, password, settings or recipient and any randomness, then read back and recovered. -/
inductive Step (P : Prims) (v : Ver) : (k : WKind) → Key P v k.kind → Key P v k.kind → Prop where
  | plain {k : WKind} {a b : Key P v k.kind} {s : Bytes} :
      PlaintextKey.display ⟨a⟩ = .ok s → PlaintextKey.parse P v k.kind s = .ok ⟨b⟩ → Step P v k a b
  | pie {k : WKind} {a b : Key P v k.kind} {wk : Key P v .Local} {rng rng' : Rng}
      {w w' : PieWrappedKey v k} {s : Bytes} :
      a.wrapPie wk rng = .ok (w, rng') → w.display = .ok s → PieWrappedKey.parse v k s = .ok w' →
      w'.unwrapKey P wk = .ok b → Step P v k a b
  | pw {k : WKind} {a b : Key P v k.kind} {pw : Bytes} {st : KdfState v} {rng rng' : Rng}
      {w w' : PwWrappedKey v k} {s : Bytes} :
      a.pwWrapWithSettings pw st rng = .ok (w, rng') → w.display = .ok s →
      PwWrappedKey.parse v k s = .ok w' → w'.unwrapKey P pw = .ok b → Step P v k a b
  | sealed {a b : Key P v .Local} {sk : Key P v .Secret} {rng rng' : Rng} {w w' : SealedKey v}
      {s : Bytes} :
      a.sealKey sk.publicKey rng = .ok (w, rng') → w.display = .ok s →
      SealedKey.parse v s = .ok w' → w'.unsealKey P sk = .ok b → Step P v .Local a b

/-- Any number of such steps. -/
inductive Travel (P : Prims) (v : Ver) (k : WKind) : Key P v k.kind → Key P v k.kind → Prop where
  | start (a : Key P v k.kind) : Travel P v k a a
  | step {a b c : Key P v k.kind} : Travel P v k a b → Step P v k b c → Travel P v k a c

theorem step_eq (L : P.Laws) {a b : Key P v k.kind} (h : Step P v k a b) : b = a := by
  cases h with
  | plain h1 h2 =>
    rw [PlaintextKey.display_eq] at h1
    cases h1
    have := (C25.plaintext_roundtrip L a)
    obtain ⟨s, h3, h4, h5⟩ := this
    rw [← h4, h5] at h2
    cases h2
    rfl
  | pie h1 h2 h3 h4 =>
    rw [PieWrappedKey.display_eq] at h2
    cases h2
    rw [PieWrappedKey.parse_ok_iff.2 rfl] at h3
    cases h3
    rw [C33.pie_roundtrip_direct L _ _ _ _ _ h1] at h4
    cases h4
    rfl
  | @pw _ _ _ _ _ _ _ w w' s h1 h2 h3 h4 =>
    have := PwWrappedKey.parse_display w
    rw [h2] at this
    simp only [Res.ok_bind] at this
    rw [this] at h3
    cases h3
    rw [C37.pw_roundtrip_direct L _ _ _ _ _ _ h1] at h4
    cases h4
    rfl
  | sealed h1 h2 h3 h4 =>
    rw [SealedKey.display_eq] at h2
    cases h2
    rw [SealedKey.parse_ok_iff.2 rfl] at h3
    cases h3
    rw [C43.seal_roundtrip_direct L _ _ _ _ _ h1] at h4
    cases h4
    rfl

/-- A key recovered after any sequence of storage steps is the original key. -/
theorem travel_eq (L : P.Laws) {a b : Key P v k.kind} (h : Travel P v k a b) : b = a := by
  induction h with
  | start => rfl
  | step _ hs ih => rw [step_eq L hs, ih]

/-- A recovered local key decrypts every token the original encrypted. -/
theorem recovered_decrypts (L : P.Laws) {a a' : Key P v .Local} (ht : Travel P v .Local a a')
    [Payload E] [MessageEncoding E M] [MessageDecoding E M] [Footer F]
    (b : TokenBuilder v .Local M F E) (i : Bytes) (rng rng' : Rng) (tok : SecuredToken v .Local F E)
    (he : b.encryptWithAssertionsAndRng P a i rng = .ok (tok, rng'))
    (hc : ∀ m, MessageEncoding.encode b.tok.encoding b.tok.message = .ok m →
      MessageDecoding.decode b.tok.encoding m = .ok b.tok.message) :
    tok.decryptWithAssertions M P a' i = .ok b.tok := by
  have : a' = a := travel_eq L ht
  rw [this]
  exact C01.local_roundtrip_direct P b a i rng rng' tok he hc

/-- A recovered secret key has the same public key, the same ids, and signs identically. -/
theorem recovered_signs (L : P.Laws) {a a' : Key P v .Secret} (ht : Travel P v .Secret a a')
    [Payload E] [MessageEncoding E M] [Footer F] :
    a'.publicKey = a.publicKey ∧ a'.toId = a.toId ∧
    ∀ (b : TokenBuilder v .Public M F E) (i : Bytes),
      b.signWithAssertions P a' i = b.signWithAssertions P a i := by
  have : a' = a := travel_eq L ht
  rw [this]
  exact ⟨rfl, rfl, fun _ _ => rfl⟩

/-- And tokens signed by the original verify under the recovered key's public key. -/
theorem recovered_verifies (L : P.Laws) {a a' : Key P v .Secret} (ht : Travel P v .Secret a a')
    [Payload E] [MessageEncoding E M] [MessageDecoding E M] [Footer F]
    (b : TokenBuilder v .Public M F E) (i : Bytes) (tok : SecuredToken v .Public F E)
    (hs : b.signWithAssertions P a i = .ok tok)
    (hc : ∀ m, MessageEncoding.encode b.tok.encoding b.tok.message = .ok m →
      MessageDecoding.decode b.tok.encoding m = .ok b.tok.message) :
    tok.verifyWithAssertions M P a'.publicKey i = .ok b.tok := by
  rw [(recovered_signs (M := M) (F := F) (E := E) L ht).1]
  exact C02.public_roundtrip_direct P L b a i tok hs hc

/-- Every kind of step is possible from every key, whenever the random source suffices. -/
theorem steps_exist (L : P.Laws) (a : Key P v k.kind) (wk : Key P v .Local) (pw : Bytes)
    (rng : Rng) (hr : pwSaltLen v + ivLen v ≤ rng.length) (hr' : 32 ≤ rng.length)
    (hp : v = .V4 → pw.length < 2 ^ 32) :
    (∃ s, PlaintextKey.display ⟨a⟩ = .ok s ∧ PlaintextKey.parse P v k.kind s = .ok ⟨a⟩) ∧
    (∃ w s rng', a.wrapPie wk rng = .ok (w, rng') ∧ w.display = .ok s ∧
      PieWrappedKey.parse v k s = .ok w ∧ w.unwrapKey P wk = .ok a) ∧
    (∃ w s rng', a.pwWrap pw rng = .ok (w, rng') ∧ w.display = .ok s ∧
      PwWrappedKey.parse v k s = .ok w ∧ w.unwrapKey P pw = .ok a) := by
  obtain ⟨s, h1, -, h2⟩ := C25.plaintext_roundtrip L a
  obtain ⟨w, s', h3, h4⟩ := C33.pie_roundtrip (k := k) L a wk rng hr'
  obtain ⟨w', s'', h5, h6⟩ := C37.default_roundtrip (k := k) L a pw rng hp hr
  exact ⟨⟨s, h1, h2⟩, ⟨w, s', _, h3, h4⟩, ⟨w', s'', _, h5, h6⟩⟩

/-- And a local key can be sealed to the public key of every secret key, whenever a scalar can be drawn
from the random source. -/
theorem seal_step_exists (L : P.Laws) (a : Key P v .Local) (sk : Key P v .Secret) (rng : Rng)
    (hr : C43.Enough v rng) :
    ∃ w s rng', a.sealKey sk.publicKey rng = .ok (w, rng') ∧ w.display = .ok s ∧
      SealedKey.parse v s = .ok w ∧ w.unsealKey P sk = .ok a := by
  obtain ⟨w, rng', s, h⟩ := C43.seal_roundtrip L a sk rng hr
  exact ⟨w, s, rng', h⟩

-- a key that was printed, then sealed
example (v : Ver) : ∃ b, Travel Toy.prims v .Local (Toy.localKey v) b := by
  obtain ⟨s, h1, -, h2⟩ := C25.plaintext_roundtrip Toy.laws (Toy.localKey v)
  obtain ⟨w, rng', s', h3, h4, h5, h6⟩ := C43.seal_roundtrip Toy.laws (Toy.localKey v)
    (C43.sampleSecret v) C43.sampleRng (C43.sampleRng_enough v)
  exact ⟨_, .step (.step (.start _) (.plain h1 h2)) (.sealed h3 h4 h5 h6)⟩

-- a secret key that was printed, wrapped and wrapped with a password
example (v : Ver) : ∃ b, Travel Toy.prims v .Secret (C43.sampleSecret v) b := by
  obtain ⟨⟨s, h1, h2⟩, ⟨w, s', r, h3, h4, h5, h6⟩, ⟨w', s'', r', h7, h8, h9, h10⟩⟩ :=
    steps_exist (k := .Secret) Toy.laws (C43.sampleSecret v) (Toy.localKey v) (asc "pw") Toy.tape
      (by rw [Toy.tape_length]; cases v <;> decide) Toy.tape_ok (fun _ => by simp [asc])
  exact ⟨_, .step (.step (.step (.start _) (.plain h1 h2)) (.pie h3 h4 h5 h6)) (.pw h7 h8 h9 h10)⟩

end C51
end Pasta
