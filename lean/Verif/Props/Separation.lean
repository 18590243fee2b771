import Verif.Props.Domain
import Verif.Props.KeyIds
import Verif.Lemmas.Pbkw
import Verif.Lemmas.Pke
import Verif.Props.Pie
import Verif.Props.Pbkw
import Verif.Props.Pke
import Verif.Props.Auth

/-!
# C16: domain separation

Four families of inputs: what is authenticated (MACed or signed), what a symmetric key is fed to
derive other keys, what the unkeyed hash is applied to, and, for each operation, the theorem that
the operation's output is computed from exactly those inputs.
-/

namespace Pasta

open Spec (header Fits PAE paserkHeader sealPub unsealSecret)

namespace C16

variable {P : Prims}

/-! ### Authenticated inputs -/

/-- The uses of authenticated input. `Bytes` fields are what the API's user supplies or the library
draws: suffix of the payload encoding, nonce, ciphertext, message, footer, assertion. -/
inductive Use (P : Prims) where
  | localToken (v : Ver) (suffix nonce ciphertext footer implicit : Bytes)
  | publicV3 (key : P.P384Point) (suffix message footer implicit : Bytes)
  | publicV4 (suffix message footer implicit : Bytes)
  | pie (v : Ver) (k : WKind) (nonce : BytesN 32) (wrapped : BytesN (keyLen v k.kind))
  | password (v : Ver) (k : WKind) (salt : BytesN (pwSaltLen v)) (settings : KdfState v)
      (nonce : BytesN (ivLen v)) (wrapped : BytesN (keyLen v k.kind))
  | sealed (v : Ver) (ephemeral : BytesN (pkeEpkLen v)) (wrapped : BytesN 32)

/-- The bytes that the code feeds to MAC or signature for each use. -/
def Use.input : Use P → Bytes
  | .localToken v s n c f i => localPreAuth v s n c f i
  | .publicV3 k s m f i => v3PublicPreAuth (P.p384Compress k).1 s m f i
  | .publicV4 s m f i => v4PublicPreAuth s m f i
  | .pie v k n c => pieTagInput v k n.1 c.1
  | .password v k s st n c => pwTagInput v k s.1 st n.1 c.1
  | .sealed v e c => pkeTagInput v e.1 c.1

/-- All parts exist in memory. -/
def Use.Fits : Use P → Prop
  | .localToken v s n c f i => Spec.Fits (header v .Local s) ∧ Spec.Fits n ∧ Spec.Fits c ∧
      Spec.Fits f ∧ Spec.Fits i
  | .publicV3 _ s m f i => Spec.Fits (header .V3 .Public s) ∧ Spec.Fits m ∧ Spec.Fits f ∧
      Spec.Fits i
  | .publicV4 s m f i => Spec.Fits (header .V4 .Public s) ∧ Spec.Fits m ∧ Spec.Fits f ∧
      Spec.Fits i
  | _ => True

/-- The pieces of the specification's PAE for the token uses. -/
def Use.pieces : Use P → List Bytes
  | .localToken v s n c f i => [header v .Local s, n, c, f, i]
  | .publicV3 k s m f i => [(P.p384Compress k).1, header .V3 .Public s, m, f, i]
  | .publicV4 s m f i => [header .V4 .Public s, m, f, i]
  | _ => []

/-- The uses by tokens. -/
def Use.isToken : Use P → Bool
  | .localToken .. | .publicV3 .. | .publicV4 .. => true
  | _ => false

theorem Use.input_eq (u : Use P) (ht : u.isToken = true) (h : u.Fits) : u.input = PAE u.pieces := by
  cases u with
  | localToken v s n c f i => exact localPreAuth_eq h.1 h.2.1 h.2.2.1 h.2.2.2.1 h.2.2.2.2
  | publicV3 k s m f i => exact v3PublicPreAuth_eq h.1 h.2.1 h.2.2.1 h.2.2.2
  | publicV4 s m f i => exact v4PublicPreAuth_eq h.1 h.2.1 h.2.2.1 h.2.2.2
  | _ => cases ht

theorem Use.pieces_fit (u : Use P) (h : u.Fits) : ∀ p ∈ u.pieces, Spec.Fits p := by
  cases u with
  | localToken v s n c f i =>
    exact forall_fits_cons h.1 (forall_fits_cons h.2.1 (forall_fits_cons h.2.2.1
      (forall_fits_cons h.2.2.2.1 (forall_fits_cons h.2.2.2.2 forall_fits_nil))))
  | publicV3 k s m f i =>
    have hc : Spec.Fits (P.p384Compress k).1 := by
      have := (P.p384Compress k).2
      simp [Spec.Fits, this]
    exact forall_fits_cons hc (forall_fits_cons h.1 (forall_fits_cons h.2.1 (forall_fits_cons h.2.2.1
      (forall_fits_cons h.2.2.2 forall_fits_nil))))
  | publicV4 s m f i =>
    exact forall_fits_cons h.1 (forall_fits_cons h.2.1 (forall_fits_cons h.2.2.1
      (forall_fits_cons h.2.2.2 forall_fits_nil)))
  | _ => exact forall_fits_nil

theorem header_head (v : Ver) (p : Purpose) (s : Bytes) : (header v p s).head? = some 118 := by
  cases v <;> cases p <;> rfl

theorem input_injective_tokens (L : P.Laws) (u u' : Use P) (ht : u.isToken = true)
    (ht' : u'.isToken = true) (h : u.Fits) (h' : u'.Fits) (e : u.input = u'.input) : u = u' := by
  rw [u.input_eq ht h, u'.input_eq ht' h'] at e
  have hl : ∀ u : Use P, u.pieces.length < 2 ^ 63 := by intro u; cases u <;> simp [Use.pieces]
  have hp := PAE_inj (hl u) (hl u') (u.pieces_fit h) (u'.pieces_fit h') e
  have hpk : ∀ (k : P.P384Point) v p s, (P.p384Compress k).1 ≠ header v p s := by
    intro k v p s he
    have h1 := L.p384Compress_tag k
    rw [he, header_head] at h1
    revert h1; decide
  cases u with
  | localToken v s n c f i =>
    cases u' with
    | localToken v' s' n' c' f' i' =>
      simp only [Use.pieces, List.cons.injEq, and_true] at hp
      obtain ⟨h1, rfl, rfl, rfl, rfl⟩ := hp
      obtain ⟨rfl, -, rfl⟩ := header_inj h1
      rfl
    | publicV3 k' s' m' f' i' =>
      simp only [Use.pieces, List.cons.injEq] at hp
      exact absurd hp.1.symm (hpk _ _ _ _)
    | publicV4 s' m' f' i' => simp [Use.pieces] at hp
    | _ => cases ht'
  | publicV3 k s m f i =>
    cases u' with
    | localToken v' s' n' c' f' i' =>
      simp only [Use.pieces, List.cons.injEq] at hp
      exact absurd hp.1 (hpk _ _ _ _)
    | publicV3 k' s' m' f' i' =>
      simp only [Use.pieces, List.cons.injEq, and_true] at hp
      obtain ⟨h0, h1, rfl, rfl, rfl⟩ := hp
      obtain ⟨-, -, rfl⟩ := header_inj h1
      have : k = k' := by
        have a := L.p384Parse_compress k
        rw [h0, L.p384Parse_compress k'] at a
        exact (Option.some.inj a).symm
      subst this
      rfl
    | publicV4 s' m' f' i' => simp [Use.pieces] at hp
    | _ => cases ht'
  | publicV4 s m f i =>
    cases u' with
    | localToken v' s' n' c' f' i' => simp [Use.pieces] at hp
    | publicV3 k' s' m' f' i' => simp [Use.pieces] at hp
    | publicV4 s' m' f' i' =>
      simp only [Use.pieces, List.cons.injEq, and_true] at hp
      obtain ⟨h1, rfl, rfl, rfl⟩ := hp
      obtain ⟨-, -, rfl⟩ := header_inj h1
      rfl
    | _ => cases ht'
  | _ => cases ht

/-- Token inputs start with a piece count, PASERK inputs with `k`. -/
theorem token_head (u : Use P) (ht : u.isToken = true) (h : u.Fits) :
    u.input.head? = some 4 ∨ u.input.head? = some 5 := by
  rw [u.input_eq ht h]
  cases u with
  | localToken => exact Or.inr rfl
  | publicV3 => exact Or.inr rfl
  | publicV4 => exact Or.inl rfl
  | _ => cases ht

theorem paserk_head (u : Use P) (ht : u.isToken = false) : u.input.head? = some 107 := by
  cases u with
  | pie v k => cases v <;> cases k <;> rfl
  | password v k => cases v <;> cases k <;> rfl
  | sealed v => cases v <;> rfl
  | _ => cases ht

theorem state_inj {v : Ver} {s s' : KdfState v} (h : (encodeState v s).1 = (encodeState v s').1) :
    s = s' := by
  have h : encodeState v s = encodeState v s' := Subtype.ext h
  have := congrArg (decodeState v) h
  rwa [decode_encodeState, decode_encodeState] at this

theorem input_injective_paserk (u u' : Use P) (ht : u.isToken = false)
    (ht' : u'.isToken = false) (e : u.input = u'.input) : u = u' := by
  cases u with
  | pie v k n c =>
    cases u' with
    | pie v' k' n' c' =>
      cases v <;> cases k <;> cases v' <;> cases k' <;>
        first
          | (exfalso; revert e
             simp [Use.input, pieTagInput, Ver.paserkHeader, WKind.pieHeader, asc]; done)
          | (have e : n.1 ++ c.1 = n'.1 ++ c'.1 := by
               simpa [Use.input, pieTagInput] using e
             obtain ⟨h1, h2⟩ := List.append_inj e (by rw [n.2, n'.2])
             rw [Subtype.ext h1, Subtype.ext h2])
    | password v' k' s' st' n' c' =>
      exfalso; revert e
      cases v <;> cases k <;> cases v' <;> cases k' <;>
        simp [Use.input, pieTagInput, pwTagInput, Ver.paserkHeader, WKind.pieHeader, WKind.pwHeader, asc]
    | sealed v' e' c' =>
      exfalso; revert e
      cases v <;> cases k <;> cases v' <;>
        simp [Use.input, pieTagInput, pkeTagInput, Ver.paserkHeader, WKind.pieHeader, asc]
    | _ => cases ht'
  | password v k s st n c =>
    cases u' with
    | pie v' k' n' c' =>
      exfalso; revert e
      cases v <;> cases k <;> cases v' <;> cases k' <;>
        simp [Use.input, pieTagInput, pwTagInput, Ver.paserkHeader, WKind.pieHeader, WKind.pwHeader, asc]
    | password v' k' s' st' n' c' =>
      cases v <;> cases k <;> cases v' <;> cases k' <;>
        first
          | (exfalso; revert e
             simp [Use.input, pwTagInput, Ver.paserkHeader, WKind.pwHeader, asc]; done)
          | (have e : s.1 ++ ((encodeState _ st).1 ++ (n.1 ++ c.1)) =
                 s'.1 ++ ((encodeState _ st').1 ++ (n'.1 ++ c'.1)) := by
               simpa [Use.input, pwTagInput] using e
             obtain ⟨h1, e⟩ := List.append_inj e (by rw [s.2, s'.2])
             obtain ⟨h2, e⟩ := List.append_inj e (by rw [(encodeState _ st).2, (encodeState _ st').2])
             obtain ⟨h3, h4⟩ := List.append_inj e (by rw [n.2, n'.2])
             rw [Subtype.ext h1, state_inj h2, Subtype.ext h3, Subtype.ext h4])
    | sealed v' e' c' =>
      exfalso; revert e
      cases v <;> cases k <;> cases v' <;>
        simp [Use.input, pwTagInput, pkeTagInput, Ver.paserkHeader, WKind.pwHeader, asc]
    | _ => cases ht'
  | sealed v ep c =>
    cases u' with
    | pie v' k' n' c' =>
      exfalso; revert e
      cases v <;> cases v' <;> cases k' <;>
        simp [Use.input, pieTagInput, pkeTagInput, Ver.paserkHeader, WKind.pieHeader, asc]
    | password v' k' s' st' n' c' =>
      exfalso; revert e
      cases v <;> cases v' <;> cases k' <;>
        simp [Use.input, pwTagInput, pkeTagInput, Ver.paserkHeader, WKind.pwHeader, asc]
    | sealed v' ep' c' =>
      cases v <;> cases v' <;>
        first
          | (exfalso; revert e
             simp [Use.input, pkeTagInput, Ver.paserkHeader, asc]; done)
          | (have e : ep.1 ++ c.1 = ep'.1 ++ c'.1 := by
               simpa [Use.input, pkeTagInput] using e
             obtain ⟨h1, h2⟩ := List.append_inj e (by rw [ep.2, ep'.2])
             rw [Subtype.ext h1, Subtype.ext h2])
    | _ => cases ht'
  | _ => cases ht

/-- Equal authenticated inputs come from the same use: same mechanism (token of either purpose, PIE
wrap, password wrap, seal), same version, purpose or key type, same encoding suffix and all parts
(in V3 public tokens, the public key too). So no MAC or signature of one kind of object is valid for
another, nor for other contents, even if the authentication keys coincide. -/
theorem input_injective (L : P.Laws) (u u' : Use P) (h : u.Fits) (h' : u'.Fits)
    (e : u.input = u'.input) : u = u' := by
  have cross : ∀ a b : Use P, a.isToken = true → b.isToken = false → a.Fits →
      a.input ≠ b.input := by
    intro a b ha hb hf e
    have h1 := token_head a ha hf
    rw [e, paserk_head b hb] at h1
    revert h1; decide
  cases ht : u.isToken <;> cases ht' : u'.isToken
  · exact input_injective_paserk u u' ht ht' e
  · exact absurd e.symm (cross _ _ ht' ht h')
  · exact absurd e (cross _ _ ht ht' h)
  · exact input_injective_tokens L u u' ht ht' h h' e

/-! ### Keys derived from a symmetric key -/

/-- What a symmetric key is used for: deriving the encryption key and the authentication key of a
token, and of a PIE-wrapped key. -/
inductive Derivation where
  | tokenEnc (nonce : Bytes)
  | tokenAuth (nonce : Bytes)
  | wrapEnc (nonce : Bytes)
  | wrapAuth (nonce : Bytes)

/-- The derivation inputs: the labels of the PASETO and PASERK specifications. -/
def Derivation.input : Derivation → Bytes
  | .tokenEnc n => asc "paseto-encryption-key" ++ n
  | .tokenAuth n => asc "paseto-auth-key-for-aead" ++ n
  | .wrapEnc n => 0x80 :: n
  | .wrapAuth n => 0x81 :: n

/-- The keyed function of each derivation: HKDF-SHA384 for V3 tokens, HMAC-SHA384 for V3 wraps,
keyed BLAKE2b in V4; `len` bytes of output. -/
def derive (P : Prims) (v : Ver) (key : BytesN 32) (len : Nat) (d : Derivation) : Bytes :=
  match v, d with
  | .V3, .tokenEnc _ | .V3, .tokenAuth _ => (P.hkdfSha384 len key.1 d.input).1
  | .V3, .wrapEnc _ | .V3, .wrapAuth _ => (P.hmacSha384 key.1 d.input).1.take len
  | .V4, _ => (P.blake2bMac len key.1 d.input).1

/-- Derivation inputs for different uses, or different nonces, never coincide: the four derived
keys of one symmetric key (also when it is used both to encrypt tokens and to wrap keys) come from
different inputs. -/
theorem derivation_injective (d d' : Derivation) (e : d.input = d'.input) : d = d' := by
  cases d <;> cases d' <;> simp [Derivation.input, asc] at e <;> simp_all

/-- Length of the derived authentication keys. -/
def authLen : Ver → Nat
  | .V3 => 48
  | .V4 => 32

/-- Cipher with the key and IV taken from `32 + ivLen v` derived bytes. -/
def streamOf (P : Prims) (v : Ver) (b : Bytes) (h : b.length = 32 + ivLen v) : Nat → UInt8 :=
  stream P v ⟨b.take 32, by simp [h]⟩ ⟨b.drop 32, by simp [h]⟩

theorem derive_length (P : Prims) (v : Ver) (key : BytesN 32) (d : Derivation) :
    (derive P v key (32 + ivLen v) d).length = 32 + ivLen v := by
  cases v
  · cases d
    · exact (P.hkdfSha384 48 key.1 _).2
    · exact (P.hkdfSha384 48 key.1 _).2
    · have := (P.hmacSha384 key.1 (Derivation.wrapEnc ‹_›).input).2
      simp [derive, this, ivLen]
    · have := (P.hmacSha384 key.1 (Derivation.wrapAuth ‹_›).input).2
      simp [derive, this, ivLen]
  · exact (P.blake2bMac 56 key.1 _).2

/-- Encrypting a token computes its ciphertext from the `tokenEnc` derivation and its tag from the
`tokenAuth` derivation, over the `localToken` input. -/
theorem token_uses {v : Ver} {M F E : Type} [Payload E] [MessageEncoding E M] [Footer F]
    (b : TokenBuilder v .Local M F E) (key : Key P v .Local) (i : Bytes) (rng rng' : Rng)
    (tok : SecuredToken v .Local F E)
    (h : b.encryptWithAssertionsAndRng P key i rng = .ok (tok, rng')) :
    ∃ n m c, n.length = 32 ∧ MessageEncoding.encode b.tok.encoding b.tok.message = .ok m ∧
      c = applyKeystream (streamOf P v (derive P v key.key (32 + ivLen v) (.tokenEnc n))
        (derive_length P v key.key _)) m ∧
      tok.payload = n ++ c ++ Spec.localMac P v (derive P v key.key (authLen v) (.tokenAuth n))
        (Use.localToken (P := P) v (Payload.suffix E) n c tok.encodedFooter i).input := by
  obtain ⟨n, m, f, hn, -, hm, -, rfl⟩ := (encrypt_ok_iff b key i rng rng' tok).1 h
  refine ⟨n, m, _, hn, hm, rfl, ?_⟩
  cases v <;> rfl

/-- PIE wrapping computes the encrypted key from the `wrapEnc` derivation and the tag from the
`wrapAuth` derivation (its first 32 bytes), over the `pie` input. -/
theorem pie_uses {v : Ver} {k : WKind} (key : Key P v k.kind) (wk : Key P v .Local)
    (rng rng' : Rng) (w : PieWrappedKey v k) (h : key.wrapPie wk rng = .ok (w, rng')) :
    w.wrappedKey.1 = applyKeystream (streamOf P v (derive P v wk.key (32 + ivLen v)
        (.wrapEnc w.nonce.1)) (derive_length P v wk.key _)) key.toBytes.1 ∧
      w.tag.1 = Spec.mac P v (derive P v wk.key 32 (.wrapAuth w.nonce.1))
        (Use.pie (P := P) v k w.nonce w.wrappedKey).input := by
  obtain ⟨-, h1, h2⟩ := (Key.wrapPie_ok_iff key wk rng rng' w).1 h
  constructor
  · rw [h1]
    cases v
    · have := (P.hmacSha384 wk.key.1 (0x80 :: w.nonce.1)).2
      have e : ((P.hmacSha384 wk.key.1 (0x80 :: w.nonce.1)).1.take (32 + ivLen .V3)) =
          (P.hmacSha384 wk.key.1 (0x80 :: w.nonce.1)).1 := by
        rw [List.take_of_length_le]; rw [this]; decide
      have key2 : ∀ (x y : Bytes) (hx : x.length = 48) (hy : y.length = 32 + ivLen .V3), y = x →
          P.aesCtr64 ⟨x.take 32, by simp [hx]⟩ ⟨x.drop 32, by simp [hx]⟩ = streamOf P .V3 y hy := by
        rintro x y hx hy rfl; rfl
      exact congrArg (fun s => applyKeystream s key.toBytes.1)
        (key2 _ _ this (derive_length P .V3 wk.key (.wrapEnc w.nonce.1)) e)
    · rfl
  · rw [h2]
    show Spec.mac P v _ (Spec.pieTagged v k.kind w.nonce.1 w.wrappedKey.1) = _
    rw [← pieTagInput_eq]
    cases v <;> rfl

/-! ### Inputs of the unkeyed hash -/

/-- The uses of SHA-384 (V3) and BLAKE2b (V4): key ids, keys derived from a password-derived key,
keys and nonce of sealing, the digest signed in V3 public tokens. -/
inductive HashUse (P : Prims) : Ver → Type where
  | id {v : Ver} (k : Kind) (key : BytesN (keyLen v k)) : HashUse P v
  | pwEnc {v : Ver} (derived : BytesN 32) : HashUse P v
  | pwAuth {v : Ver} (derived : BytesN 32) : HashUse P v
  | sealEnc {v : Ver} (shared : Bytes) (ephemeral recipient : BytesN (pkeEpkLen v)) : HashUse P v
  | sealAuth {v : Ver} (shared : Bytes) (ephemeral recipient : BytesN (pkeEpkLen v)) : HashUse P v
  | sealNonce (ephemeral recipient : BytesN 32) : HashUse P .V4
  | signature (key : P.P384Point) (suffix message footer implicit : Bytes) : HashUse P .V3

/-- The hashed bytes. -/
def HashUse.input {v : Ver} : HashUse P v → Bytes
  | .id k b => paserkHeader v (Spec.idTypeText k) ++ Spec.paserkText v (Spec.keyTypeText k) b.1
  | .pwEnc b => 0xff :: b.1
  | .pwAuth b => 0xfe :: b.1
  | .sealEnc xk e p => Spec.sealKdfInput v 1 xk e.1 p.1
  | .sealAuth xk e p => Spec.sealKdfInput v 2 xk e.1 p.1
  | .sealNonce e p => e.1 ++ p.1
  | .signature k s m f i => (Use.publicV3 (P := P) k s m f i).input

/-- Length of a Diffie-Hellman shared secret. -/
def dhLen : Ver → Nat
  | .V3 => 48
  | .V4 => 32

/-- The parts exist in memory (only a matter for signatures); a shared secret has its length. -/
def HashUse.Fits {v : Ver} : HashUse P v → Prop
  | .signature k s m f i => (Use.publicV3 (P := P) k s m f i).Fits
  | .sealEnc xk _ _ | .sealAuth xk _ _ => xk.length = dhLen v
  | _ => True

/-- The uses are recognised by the first byte of the input, except the nonce of sealing. -/
def HashUse.first {v : Ver} : HashUse P v → Option UInt8
  | .id .. => some 107
  | .pwEnc _ => some 0xff
  | .pwAuth _ => some 0xfe
  | .sealEnc .. => some 1
  | .sealAuth .. => some 2
  | .sealNonce .. => none
  | .signature .. => some 5

theorem first_eq {v : Ver} (u : HashUse P v) (h : u.Fits) (hn : u.first ≠ none) :
    u.input.head? = u.first := by
  cases u with
  | id k b => cases v <;> cases k <;> rfl
  | sealNonce => exact absurd rfl hn
  | signature k s m f i =>
    show (Use.publicV3 (P := P) k s m f i).input.head? = _
    rw [Use.input_eq (Use.publicV3 (P := P) k s m f i) rfl h]; rfl
  | _ => rfl

theorem nonce_length (u : HashUse P .V4) (h : u.Fits) (hn : u.first ≠ none) :
    u.input.length ≠ 64 := by
  cases u with
  | id k b =>
    have := b.2
    cases k <;>
      simp [HashUse.input, Spec.paserkText, paserkHeader, C22.text_length, this, keyLen,
        Spec.paserkVersion, Spec.idTypeText, Spec.keyTypeText, asc]
  | pwEnc b => simp [HashUse.input, b.2]
  | pwAuth b => simp [HashUse.input, b.2]
  | sealEnc xk e p =>
    have h : xk.length = 32 := h
    have := e.2; have := p.2
    simp_all [HashUse.input, Spec.sealKdfInput, Spec.sealHeader, paserkHeader, Spec.paserkVersion, asc,
      pkeEpkLen]
  | sealAuth xk e p =>
    have h : xk.length = 32 := h
    have := e.2; have := p.2
    simp_all [HashUse.input, Spec.sealKdfInput, Spec.sealHeader, paserkHeader, Spec.paserkVersion, asc,
      pkeEpkLen]
  | sealNonce => exact absurd rfl hn

theorem sealKdf_inj {v : Ver} {b : UInt8} {xk xk' : Bytes} {e p e' p' : BytesN (pkeEpkLen v)}
    (hx : xk.length = dhLen v) (hx' : xk'.length = dhLen v)
    (h : Spec.sealKdfInput v b xk e.1 p.1 = Spec.sealKdfInput v b xk' e'.1 p'.1) :
    xk = xk' ∧ e = e' ∧ p = p' := by
  unfold Spec.sealKdfInput at h
  simp only [List.cons.injEq, true_and, List.append_assoc] at h
  have h := List.append_cancel_left h
  obtain ⟨h1, h⟩ := List.append_inj h (by rw [hx, hx'])
  obtain ⟨h2, h3⟩ := List.append_inj h (by rw [e.2, e'.2])
  exact ⟨h1, Subtype.ext h2, Subtype.ext h3⟩

/-- Equal inputs to the unkeyed hash come from the same use with the same parts: ids, password-wrap
keys, sealing keys, sealing nonces and V3 signature digests never share a hash input. -/
theorem hash_injective (L : P.Laws) {v : Ver} (u u' : HashUse P v) (h : u.Fits) (h' : u'.Fits)
    (e : u.input = u'.input) : u = u' := by
  have hfirst : u.first = u'.first := by
    by_cases h1 : u.first = none
    · by_cases h2 : u'.first = none
      · rw [h1, h2]
      · cases u <;> first | (cases h1; done) | skip
        rename_i a b
        exact absurd (by rw [← e]; simp [HashUse.input, a.2, b.2]) (nonce_length u' h' h2)
    · by_cases h2 : u'.first = none
      · cases u' <;> first | (cases h2; done) | skip
        rename_i a b
        exact absurd (by rw [e]; simp [HashUse.input, a.2, b.2]) (nonce_length u h h1)
      · rw [← first_eq u h h1, ← first_eq u' h' h2, e]
  cases u with
  | id k b =>
    cases u' <;> first | (exfalso; revert hfirst; simp [HashUse.first]; done) | skip
    rename_i k' b'
    have e : paserkHeader v (Spec.idTypeText k) ++ Spec.paserkText v (Spec.keyTypeText k) b.1 =
      paserkHeader v (Spec.idTypeText k') ++ Spec.paserkText v (Spec.keyTypeText k') b'.1 := e
    have hl : (paserkHeader v (Spec.idTypeText k)).length =
        (paserkHeader v (Spec.idTypeText k')).length := by
      cases v <;> cases k <;> cases k' <;> rfl
    obtain ⟨h1, h2⟩ := List.append_inj e hl
    have ek : k = k' := by
      cases v <;> cases k <;> cases k' <;> first | rfl | (exact absurd h1 (by decide))
    subst ek
    rw [Subtype.ext (SecuredToken.base64url_inj (List.append_cancel_left h2))]
  | pwEnc b =>
    cases u' <;> first | (exfalso; revert hfirst; simp [HashUse.first]; done) | skip
    rename_i b'
    simp only [HashUse.input, List.cons.injEq, true_and] at e
    rw [Subtype.ext e]
  | pwAuth b =>
    cases u' <;> first | (exfalso; revert hfirst; simp [HashUse.first]; done) | skip
    rename_i b'
    simp only [HashUse.input, List.cons.injEq, true_and] at e
    rw [Subtype.ext e]
  | sealEnc xk a b =>
    cases u' <;> first | (exfalso; revert hfirst; simp [HashUse.first]; done) | skip
    obtain ⟨rfl, rfl, rfl⟩ := sealKdf_inj h h' e
    rfl
  | sealAuth xk a b =>
    cases u' <;> first | (exfalso; revert hfirst; simp [HashUse.first]; done) | skip
    obtain ⟨rfl, rfl, rfl⟩ := sealKdf_inj h h' e
    rfl
  | sealNonce a b =>
    cases u' <;> first | (exfalso; revert hfirst; simp [HashUse.first]; done) | skip
    rename_i a' b'
    obtain ⟨h1, h2⟩ := List.append_inj e (by rw [a.2, a'.2])
    rw [Subtype.ext h1, Subtype.ext h2]
  | signature k s m f i =>
    cases u' <;> first | (exfalso; revert hfirst; simp [HashUse.first]; done) | skip
    rename_i k' s' m' f' i'
    have := input_injective L (.publicV3 k s m f i) (.publicV3 k' s' m' f' i') h h' e
    cases this
    rfl

/-- The hash: SHA-384, or BLAKE2b with `len` bytes of output. -/
def hash (P : Prims) (v : Ver) (len : Nat) (u : HashUse P v) : Bytes :=
  match v with
  | .V3 => (P.sha384 u.input).1
  | .V4 => (P.blake2b len u.input).1

/-- A key's id is the (first 33 bytes of the) hash of the `id` input. -/
theorem id_uses {v : Ver} {k : Kind} (key : Key P v k) :
    ∃ i, key.toId = .ok i ∧ i.id.1 = (hash P v 33 (.id k key.toBytes)).take 33 := by
  obtain ⟨i, h1, h2⟩ := C30.id_spec key
  refine ⟨i, h1, ?_⟩
  rw [h2]
  cases v
  · rfl
  · show (P.blake2b 33 _).1 = (P.blake2b 33 _).1.take 33
    rw [List.take_of_length_le (by rw [(P.blake2b 33 _).2]; exact Nat.le_refl _)]
    rfl

theorem hash_take32 (P : Prims) (v : Ver) (u : HashUse P v) :
    ((hash P v 32 u).take 32).length = 32 := by
  cases v
  · have := (P.sha384 u.input).2; simp [hash, this]
  · have := (P.blake2b 32 u.input).2; simp [hash, this]

/-- Password wrapping encrypts with the first 32 bytes of the `pwEnc` hash and authenticates the
`password` input with the `pwAuth` hash, both of the key derived from the password. -/
theorem pw_uses {v : Ver} {k : WKind} (key : Key P v k.kind) (pw : Bytes) (st : KdfState v)
    (rng rng' : Rng) (w : PwWrappedKey v k)
    (h : key.pwWrapWithSettings pw st rng = .ok (w, rng')) :
    ∃ d : BytesN 32, d = Spec.pwKey P (specParams st) pw w.salt.1 ∧
      w.edk.1 = applyKeystream (stream P v ⟨(hash P v 32 (.pwEnc d)).take 32, hash_take32 _ _ _⟩
        w.nonce) key.toBytes.1 ∧
      w.tag.1 = Spec.mac P v (hash P v 32 (.pwAuth d))
        (Use.password (P := P) v k w.salt w.state w.nonce w.edk).input := by
  obtain ⟨-, -, h0, h1, h2⟩ := (Key.pwWrap_ok_iff key pw st rng rng' w).1 h
  refine ⟨_, rfl, ?_, ?_⟩
  · rw [h1]
    have e : Spec.pwEncKey P v (Spec.pwKey P (specParams st) pw w.salt.1) =
        ⟨(hash P v 32 (.pwEnc (Spec.pwKey P (specParams st) pw w.salt.1))).take 32,
          hash_take32 _ _ _⟩ := by
      cases v
      · rfl
      · apply Subtype.ext
        show (P.blake2b 32 _).1 = (P.blake2b 32 _).1.take 32
        rw [List.take_of_length_le (by rw [(P.blake2b 32 _).2]; exact Nat.le_refl _)]
        rfl
    show applyKeystream (stream P v _ w.nonce) key.toBytes.1 = _
    rw [e]
  · rw [h2, h0]
    show Spec.mac P v _ (Spec.pwTagged k.kind w.salt.1 (specParams st) w.nonce.1 w.edk.1) = _
    rw [← pwTagInput_eq]
    cases v <;> rfl

/-- Key and IV of sealing: in V3 the two parts of the `sealEnc` hash; in V4 the `sealEnc` hash and
the `sealNonce` hash. -/
def SealKeys (P : Prims) : (v : Ver) → BytesN 32 → BytesN (ivLen v) → Bytes →
    BytesN (pkeEpkLen v) → BytesN (pkeEpkLen v) → Prop
  | .V3, ek, iv, xk, e, p => ek.1 ++ iv.1 = hash P .V3 32 (.sealEnc xk e p)
  | .V4, ek, iv, xk, e, p =>
    ek.1 = hash P .V4 32 (.sealEnc xk e p) ∧ iv.1 = hash P .V4 24 (.sealNonce e p)

/-- Sealing authenticates the `sealed` input under the `sealAuth` hash of the shared secret and both
public keys, and encrypts with the `sealEnc` hash (V3: key and IV; V4: key, with the `sealNonce` hash
as nonce). -/
theorem seal_uses {v : Ver} (key : Key P v .Local) (pk : Key P v .Public) (rng rng' : Rng)
    (w : SealedKey v) (h : key.sealKey pk rng = .ok (w, rng')) :
    ∃ (xk : Bytes) (pkb : BytesN (pkeEpkLen v)), xk.length = dhLen v ∧ pkb.1 = sealPub P pk ∧
      w.tag.1 = Spec.mac P v (hash P v 32 (.sealAuth xk w.ephemeralPublicKey pkb))
        (Use.sealed (P := P) v w.ephemeralPublicKey w.encryptedDataKey).input ∧
      ∃ ek iv, w.encryptedDataKey.1 = applyKeystream (stream P v ek iv) key.key.1 ∧
        SealKeys P v ek iv xk w.ephemeralPublicKey pkb := by
  obtain ⟨xk, hd, h1, h2⟩ := (Key.sealKey_ok_iff key pk rng rng' w).1 h
  cases v
  · refine ⟨xk, P.p384Compress pk.key, ?_, rfl, ?_, ?_⟩
    · obtain ⟨esk, -, rfl, -⟩ := hd
      exact (P.p384Dh esk pk.key).2
    · rw [h2, show (Use.sealed (P := P) .V3 w.ephemeralPublicKey w.encryptedDataKey).input = _ from
        pkeTagInput_eq .V3 _ _]
      rfl
    · refine ⟨_, _, by rw [h1]; rfl, ?_⟩
      show List.take 32 _ ++ List.drop 32 _ = _
      rw [List.take_append_drop]
      rfl
  · refine ⟨xk, P.edToMontgomery pk.key, ?_, rfl, ?_, ?_⟩
    · obtain ⟨b, -, rfl, -⟩ := hd
      exact (P.montMul _ _).2
    · rw [h2, show (Use.sealed (P := P) .V4 w.ephemeralPublicKey w.encryptedDataKey).input = _ from
        pkeTagInput_eq .V4 _ _]
      rfl
    · exact ⟨_, _, by rw [h1]; rfl, rfl, rfl⟩

/-- The signature of the token input: ECDSA over its hash in V3, Ed25519 in V4. -/
def signatureOn (P : Prims) : (v : Ver) → Inner P v .Secret → (s m f i : Bytes) → Option Bytes
  | .V3, sk, s, m, f, i =>
    (P.p384Sign sk (P.sha384 (HashUse.signature (P := P) (P.p384Public sk) s m f i).input)).map (·.1)
  | .V4, sk, s, m, f, i => some (P.edSign sk (Use.publicV4 (P := P) s m f i).input).1

/-- Signing a token signs the `publicV3` / `publicV4` input (in V3, its hash, the `signature` use). -/
theorem sign_uses {v : Ver} {M F E : Type} [Payload E] [MessageEncoding E M] [Footer F]
    (b : TokenBuilder v .Public M F E) (key : Key P v .Secret) (i : Bytes)
    (tok : SecuredToken v .Public F E) (h : b.signWithAssertions P key i = .ok tok) :
    ∃ m, MessageEncoding.encode b.tok.encoding b.tok.message = .ok m ∧
      ∃ sig, signatureOn P v key.key (Payload.suffix E) m tok.encodedFooter i = some sig ∧
        tok.payload = m ++ sig := by
  obtain ⟨m, f, s, hm, -, hs, rfl⟩ := (sign_ok_iff b key i tok).1 h
  refine ⟨m, hm, s.1, ?_, rfl⟩
  cases v
  · have hs := Res.unwrap_eq_ok.1 hs
    show (P.p384Sign _ _).map (·.1) = _
    erw [hs]
    rfl
  · cases hs; rfl

/-! ### Instances -/

-- the derivations of one key at one nonce, under the toy primitives, for both versions
example : ∃ d d' : Derivation, d ≠ d' ∧ derive Toy.prims .V4 (Toy.localKey .V4).key 32 d ≠
    derive Toy.prims .V4 (Toy.localKey .V4).key 32 d' :=
  ⟨.tokenEnc [1], .wrapAuth [1], by simp, by decide +kernel⟩

-- a fitting pair of uses whose parts concatenate to the same bytes but which are separated
example : ∃ u u' : Use Toy.prims, u.Fits ∧ u'.Fits ∧ u.input ≠ u'.input ∧
    u.pieces.flatten = u'.pieces.flatten := by
  refine ⟨.publicV4 [] (asc "ab") (asc "c") [], .publicV4 [] (asc "a") (asc "bc") [], ?_, ?_, ?_, ?_⟩
  · refine ⟨?_, ?_, ?_, ?_⟩ <;> (unfold Spec.Fits; decide)
  · refine ⟨?_, ?_, ?_, ?_⟩ <;> (unfold Spec.Fits; decide)
  · decide +kernel
  · decide

-- the operations succeed, so the `_uses` theorems apply
example : ∃ w rng', (Toy.localKey .V4).wrapPie (k := .Local) (Toy.localKey .V4) Toy.tape = .ok (w, rng') := by
  obtain ⟨w, h⟩ | ⟨h, -⟩ := C33.wrap_outcome (k := .Local) (Toy.localKey .V4) (Toy.localKey .V4) Toy.tape
  · exact ⟨w, _, h⟩
  · exact absurd h (by have := Toy.tape_ok; omega)

example (v : Ver) : (∃ w rng', (Toy.localKey v).pwWrapWithSettings (k := .Local) (asc "pw")
      (KdfState.default v) Toy.tape = .ok (w, rng')) ∧
    (∃ w rng', (Toy.localKey v).sealKey (C43.sampleSecret v).publicKey C43.sampleRng = .ok (w, rng')) ∧
    (∃ tok, (Sample.builder v .Public Sample.Raw).signWithAssertions Toy.prims (C43.sampleSecret v)
      (asc "ia") = .ok tok) ∧
    ∃ tok rng', (Sample.builder v .Local Sample.Raw).encryptWithAssertionsAndRng Toy.prims
      (Toy.localKey v) (asc "ia") Toy.tape = .ok (tok, rng') := by
  refine ⟨?_, ?_, ?_, ?_⟩
  · obtain ⟨w, s, h1, -⟩ := C37.default_roundtrip (k := .Local) Toy.laws (Toy.localKey v)
      (asc "pw") Toy.tape (fun _ => by simp [asc]) (by rw [Toy.tape_length]; cases v <;> decide)
    exact ⟨w, _, h1⟩
  · obtain ⟨w, r, _, h1, _⟩ := C43.seal_roundtrip Toy.laws (Toy.localKey v) (C43.sampleSecret v)
      C43.sampleRng (C43.sampleRng_enough v)
    exact ⟨w, r, h1⟩
  · obtain ⟨t, h, -⟩ := sample_public v (C43.sampleSecret v)
    exact ⟨t, h⟩
  · obtain ⟨t, r, h, -⟩ := sample_local v
    exact ⟨t, r, h⟩

-- two fitting hash inputs of different purposes
example : ∃ u u' : HashUse Toy.prims .V4, u.Fits ∧ u'.Fits ∧ u.input ≠ u'.input := by
  refine ⟨.pwEnc Toy.key32, .pwAuth Toy.key32, ?_, ?_, ?_⟩
  · trivial
  · trivial
  · decide +kernel

end C16
end Pasta
