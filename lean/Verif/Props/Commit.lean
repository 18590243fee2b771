import Verif.Props.Mixed
import Verif.Props.Passwords
import Verif.Props.Pke
import Verif.Props.OneMessage

/-!
# C73: a tag commits to the key and to everything it is computed from

With some authenticated ciphers one ciphertext can be made to open under two keys. Here the tag is a
hash of a key that is itself a hash, so that would be a collision of SHA-384 (V3) or BLAKE2b (V4).
The theorems say exactly that, with the actual algorithms (`Real.prims`): they name the few hash
inputs between which the collision is, each computed from the two keys and tokens at hand. (Only to
say that a collision exists would say nothing: every hash function has collisions.)
-/

namespace Pasta.C73

open Real (prims)
open Spec (header Fits pieAuthKey pieTagged sealAuthKey sealTagged sealPub unsealSecret pwAuthKey
  pwTagged pwKey)
open C71 (hmacKey)

variable {v : Ver} {M M' F F' E E' : Type}

/-! ### Hash inputs -/

/-- What the hash function of a version is applied to: SHA-384 to bytes, BLAKE2b-256 to a key (empty
for the unkeyed hash) and bytes. -/
def Input : Ver → Type
  | .V3 => Bytes
  | .V4 => Bytes × Bytes

/-- SHA-384, BLAKE2b-256. -/
def digest : (v : Ver) → Input v → Bytes
  | .V3, m => (Real.sha384 m).1
  | .V4, x => (Real.blake2bMac 32 x.1 x.2).1

/-- One of `xs` and one of `ys` are different and their hashes agree in the first `n` bytes. -/
def Collide (n : Nat) (xs ys : List (Input v)) : Prop :=
  ∃ x ∈ xs, ∃ y ∈ ys, x ≠ y ∧ (digest v x).take n = (digest v y).take n

/-- What is hashed for a MAC. HMAC (RFC 2104) is `H(K ⊕ opad || H(K ⊕ ipad || m))`. -/
def macInputs : (v : Ver) → (ak msg : Bytes) → List (Input v)
  | .V3, ak, msg =>
    let inner := (hmacKey ak).map (· ^^^ 0x36) ++ msg
    [inner, (hmacKey ak).map (· ^^^ 0x5c) ++ (Real.sha384 inner).1]
  | .V4, ak, msg => [(ak, msg)]

/-- What is hashed for the authentication key of a local token (RFC 5869: extract, expand). -/
def authKeyInputs : (v : Ver) → (key n : Bytes) → List (Input v)
  | .V3, key, n =>
    macInputs .V3 (List.replicate 48 0) key ++
      macInputs .V3 (Real.hmacSha384 (List.replicate 48 0) key).1 (Spec.authInfo n ++ [1])
  | .V4, key, n => [(key, Spec.authInfo n)]

/-- What is hashed to make or check the tag of a local token. -/
def tokenInputs (v : Ver) (key : BytesN 32) (h n c f i : Bytes) : List (Input v) :=
  authKeyInputs v key.1 n ++
    macInputs v (Spec.localAuthKey prims v key n) (Spec.localPreAuth h n c f i)

/-- … of a PIE-wrapped key. -/
def pieInputs (v : Ver) (k : Kind) (wk : BytesN 32) (n c : Bytes) : List (Input v) :=
  macInputs v wk.1 (Spec.pieAuthInput n) ++
    macInputs v (pieAuthKey prims v wk n) (pieTagged v k n c)

/-- The input of an unkeyed hash. -/
def plain : (v : Ver) → Bytes → Input v
  | .V3, m => m
  | .V4, m => ([], m)

/-- … of a sealed key. -/
def sealInputs (v : Ver) (xk epk pk c : Bytes) : List (Input v) :=
  plain v (Spec.sealKdfInput v 2 xk epk pk) ::
    macInputs v (sealAuthKey prims v xk epk pk) (sealTagged v epk c)

/-- … of a password-wrapped key, once the password has been turned into the key `dk`. -/
def pwInputs (k : Kind) (dk : BytesN 32) (s : Bytes) (st : Spec.PwParams v) (n c : Bytes) :
    List (Input v) :=
  plain v (0xfe :: dk.1) :: macInputs v (pwAuthKey prims v dk) (pwTagged k s st n c)

/-! ### Lemmas -/

theorem Collide.mono {n : Nat} {xs xs' ys ys' : List (Input v)} (h : Collide n xs ys)
    (hx : ∀ x ∈ xs, x ∈ xs') (hy : ∀ y ∈ ys, y ∈ ys') : Collide n xs' ys' := by
  obtain ⟨x, h1, y, h2, h3⟩ := h
  exact ⟨x, hx x h1, y, hy y h2, h3⟩

theorem len {n : Nat} (b : BytesN n) : b.1.length = n := b.2

theorem map_xor_inj (a : UInt8) {x y : Bytes} (h : x.map (· ^^^ a) = y.map (· ^^^ a)) : x = y := by
  have := congrArg (List.map (· ^^^ a)) h
  simpa [List.map_map, Function.comp_def, UInt8.xor_assoc] using this

theorem hmacKey_length {k : Bytes} (h : k.length ≤ 128) : (hmacKey k).length = 128 := by
  rw [C71.hmacKey_short h]
  simp; omega

theorem hmacKey_inj {k k' : Bytes} (h : k.length ≤ 128) (hl : k.length = k'.length)
    (e : hmacKey k = hmacKey k') : k = k' := by
  rw [C71.hmacKey_short h, C71.hmacKey_short (hl ▸ h)] at e
  exact (List.append_inj e hl).1

theorem hmac_eq (k m : Bytes) : Real.hmacSha384 k m =
    Real.sha384 ((hmacKey k).map (· ^^^ 0x5c) ++
      (Real.sha384 ((hmacKey k).map (· ^^^ 0x36) ++ m)).1) := rfl

/-- The MAC of the specification, cut to its first `n` bytes. -/
theorem mac_commits (n : Nat) {ak ak' m m' : Bytes} (h : ak.length ≤ 128)
    (hl : ak.length = ak'.length)
    (e : (Spec.mac prims v ak m).take n = (Spec.mac prims v ak' m').take n) :
    (ak = ak' ∧ m = m') ∨ Collide n (macInputs v ak m) (macInputs v ak' m') := by
  cases v
  · have e : (Real.hmacSha384 ak m).1.take n = (Real.hmacSha384 ak' m').1.take n := e
    rw [hmac_eq, hmac_eq] at e
    by_cases ho : (hmacKey ak).map (· ^^^ 0x5c) ++
        (Real.sha384 ((hmacKey ak).map (· ^^^ 0x36) ++ m)).1 =
      (hmacKey ak').map (· ^^^ 0x5c) ++ (Real.sha384 ((hmacKey ak').map (· ^^^ 0x36) ++ m')).1
    · obtain ⟨h1, h2⟩ := List.append_inj' ho (by rw [len, len])
      by_cases hi : (hmacKey ak).map (· ^^^ 0x36) ++ m = (hmacKey ak').map (· ^^^ 0x36) ++ m'
      · left
        refine ⟨hmacKey_inj h hl (map_xor_inj _ h1), ?_⟩
        exact (List.append_inj hi (by
          simp only [List.length_map]; rw [hmacKey_length h, hmacKey_length (hl ▸ h)])).2
      · right
        exact ⟨_, List.mem_cons_self, _, List.mem_cons_self, hi, congrArg (List.take n) h2⟩
    · right
      exact ⟨_, List.mem_cons_of_mem _ List.mem_cons_self, _,
        List.mem_cons_of_mem _ List.mem_cons_self, ho, e⟩
  · have e : (Real.blake2bMac 32 ak m).1.take n = (Real.blake2bMac 32 ak' m').1.take n := e
    by_cases hi : (ak, m) = (ak', m')
    · left
      exact ⟨congrArg Prod.fst hi, congrArg Prod.snd hi⟩
    · right
      exact ⟨_, List.mem_cons_self, _, List.mem_cons_self, hi, e⟩

theorem plain_inj {a b : Bytes} (h : plain v a = plain v b) : a = b := by
  cases v
  · exact h
  · exact congrArg Prod.snd h

theorem fit_self (n : Nat) (b : Bytes) (h : b.length = n) : (Real.fit n b).1 = b := by
  subst h
  simp [Real.fit]

theorem hkdf_eq (key info : Bytes) : (Real.hkdfSha384 48 key info).1 =
    (Real.hmacSha384 (Real.hmacSha384 (List.replicate 48 0) key).1 (info ++ [1])).1 := by
  unfold Real.hkdfSha384
  dsimp only
  have : Real.hkdfBlocks (Real.hmacSha384 (List.replicate 48 0) key).1 info ((48 + 47) / 48) 1 [] =
      (Real.hmacSha384 (Real.hmacSha384 (List.replicate 48 0) key).1 (info ++ [1])).1 := by
    show Real.hkdfBlocks _ _ 1 1 [] = _
    rw [Real.hkdfBlocks, Real.hkdfBlocks]
    simp
  rw [this]
  exact fit_self _ _ (len _)

theorem authKey_commits {key key' : BytesN 32} {n n' : Bytes}
    (e : Spec.localAuthKey prims v key n = Spec.localAuthKey prims v key' n') :
    (key = key' ∧ n = n') ∨ Collide 48 (authKeyInputs v key.1 n) (authKeyInputs v key'.1 n') := by
  have info : ∀ {n n' : Bytes}, Spec.authInfo n = Spec.authInfo n' → n = n' :=
    fun h => List.append_cancel_left h
  cases v
  · have e : (Real.hkdfSha384 48 key.1 (Spec.authInfo n)).1 =
      (Real.hkdfSha384 48 key'.1 (Spec.authInfo n')).1 := e
    rw [hkdf_eq, hkdf_eq] at e
    rcases mac_commits (v := .V3) 48 (by rw [len]; decide)
        (by rw [len, len]) (congrArg (List.take 48) e) with ⟨h1, h2⟩ | h
    · rcases mac_commits (v := .V3) 48 (by decide) rfl (congrArg (List.take 48) h1) with ⟨-, h3⟩ | h
      · exact .inl ⟨Subtype.ext h3, info (List.append_cancel_right h2)⟩
      · exact .inr (h.mono (fun _ => List.mem_append_left _) (fun _ => List.mem_append_left _))
    · exact .inr (h.mono (fun _ => List.mem_append_right _) (fun _ => List.mem_append_right _))
  · rcases mac_commits (v := .V4) (ak := key.1) (ak' := key'.1) 48
      (by rw [len]; decide) (by rw [len, len])
      (congrArg (List.take 48) e) with ⟨h1, h2⟩ | h
    · exact .inl ⟨Subtype.ext h1, info h2⟩
    · exact .inr h

theorem localAuthKey_len (key : BytesN 32) (n : Bytes) :
    (Spec.localAuthKey prims v key n).length = Spec.tagLen v := by
  cases v
  · exact (Spec.v3AuthKey prims key n).2
  · exact (Spec.v4AuthKey prims key n).2

theorem tag_commits {key key' : BytesN 32} {h n c f i h' n' c' f' i' : Bytes}
    (hf : Fits h ∧ Fits n ∧ Fits c ∧ Fits f ∧ Fits i)
    (hf' : Fits h' ∧ Fits n' ∧ Fits c' ∧ Fits f' ∧ Fits i')
    (e : Spec.localTag prims v key h n c f i = Spec.localTag prims v key' h' n' c' f' i') :
    (key = key' ∧ h = h' ∧ n = n' ∧ c = c' ∧ f = f' ∧ i = i') ∨
      Collide 48 (tokenInputs v key h n c f i) (tokenInputs v key' h' n' c' f' i') := by
  have e : Spec.mac prims v (Spec.localAuthKey prims v key n) (Spec.localPreAuth h n c f i) =
      Spec.mac prims v (Spec.localAuthKey prims v key' n') (Spec.localPreAuth h' n' c' f' i') := by
    cases v <;> exact e
  rcases mac_commits 48 (by rw [localAuthKey_len]; cases v <;> decide)
      (by rw [localAuthKey_len, localAuthKey_len]) (congrArg (List.take 48) e) with ⟨h1, h2⟩ | h
  · rcases authKey_commits h1 with ⟨h3, -⟩ | h
    · exact .inl ⟨h3, localPreAuth_inj hf hf' h2⟩
    · exact .inr (h.mono (fun _ => List.mem_append_left _) (fun _ => List.mem_append_left _))
  · exact .inr (h.mono (fun _ => List.mem_append_right _) (fun _ => List.mem_append_right _))

/-! ### Local tokens -/

/-- Two accepted local tokens with the same tag, of any encodings, under any two keys, are the same:
same key, same nonce and ciphertext, same footer, same assertion, same encoding suffix. Otherwise two
different ones of the hash inputs at hand have the same hash. -/
theorem local_commits [Payload E] [MessageDecoding E M] [Payload E'] [MessageDecoding E' M']
    (t : SecuredToken v .Local F E) (t' : SecuredToken v .Local F' E')
    (key key' : Key prims v .Local) (i i' : Bytes)
    (hfit : PartsFit (header v .Local (Payload.suffix E)) t.payload t.encodedFooter i)
    (hfit' : PartsFit (header v .Local (Payload.suffix E')) t'.payload t'.encodedFooter i')
    (n c n' c' tag : Bytes) (hn : n.length = 32) (hn' : n'.length = 32)
    (htag : tag.length = Spec.tagLen v)
    (hp : t.payload = n ++ c ++ tag) (hp' : t'.payload = n' ++ c' ++ tag)
    (hok : t.decryptWithAssertions M prims key i ≠ .err .cryptoError ∧
      t.decryptWithAssertions M prims key i ≠ .panic)
    (hok' : t'.decryptWithAssertions M' prims key' i' ≠ .err .cryptoError ∧
      t'.decryptWithAssertions M' prims key' i' ≠ .panic) :
    (key = key' ∧ n = n' ∧ c = c' ∧ t.encodedFooter = t'.encodedFooter ∧ i = i' ∧
      Payload.suffix E = Payload.suffix E') ∨
    Collide 48
      (tokenInputs v key.key (header v .Local (Payload.suffix E)) n c t.encodedFooter i)
      (tokenInputs v key'.key (header v .Local (Payload.suffix E')) n' c' t'.encodedFooter i') := by
  have split : ∀ {key : BytesN 32} {h p f i n c : Bytes}, n.length = 32 → p = n ++ c ++ tag →
      Spec.LocalAuthentic prims v key h p f i → tag = Spec.localTag prims v key h n c f i := by
    rintro key h p f i n c hn hp ⟨n1, c1, hn1, hp1⟩
    rw [hp] at hp1
    obtain ⟨h1, h2⟩ := List.append_inj' hp1 (by rw [htag, localTag_length])
    obtain ⟨rfl, rfl⟩ := List.append_inj h1 (by rw [hn, hn1])
    exact h2
  have e := split hn hp ((C03.decrypt_accepts_iff prims t key i hfit).1 hok)
  have e' := split hn' hp' ((C03.decrypt_accepts_iff prims t' key' i' hfit').1 hok')
  have fp := fits_pieces hfit.message hp
  have fp' := fits_pieces hfit'.message hp'
  rcases tag_commits ⟨hfit.header, fp.1, fp.2, hfit.footer, hfit.implicit⟩
      ⟨hfit'.header, fp'.1, fp'.2, hfit'.footer, hfit'.implicit⟩ (e.symm.trans e') with
    ⟨h1, h2, h3, h4, h5, h6⟩ | h
  · left
    refine ⟨?_, h3, h4, h5, h6, (header_inj h2).2.2⟩
    cases key; cases key'; exact congrArg Key.mk h1
  · exact .inr h

/-- A local token that one key accepts gives `CryptoError` under every other key, with whatever
assertion, or two different ones of the hash inputs at hand have the same hash. -/
theorem local_other_key [Payload E] [MessageDecoding E M] (t : SecuredToken v .Local F E)
    (key key' : Key prims v .Local) (i i' : Bytes)
    (hfit : PartsFit (header v .Local (Payload.suffix E)) t.payload t.encodedFooter i)
    (hfit' : Fits i') (hne : key ≠ key')
    (hok : t.decryptWithAssertions M prims key i ≠ .err .cryptoError ∧
      t.decryptWithAssertions M prims key i ≠ .panic) :
    t.decryptWithAssertions M prims key' i' = .err .cryptoError ∨
    ∃ n c tag, t.payload = n ++ c ++ tag ∧ n.length = 32 ∧ tag.length = Spec.tagLen v ∧
      Collide 48
        (tokenInputs v key.key (header v .Local (Payload.suffix E)) n c t.encodedFooter i)
        (tokenInputs v key'.key (header v .Local (Payload.suffix E)) n c t.encodedFooter i') := by
  have hfit2 : PartsFit (header v .Local (Payload.suffix E)) t.payload t.encodedFooter i' :=
    ⟨hfit.header, hfit.message, hfit.footer, hfit'⟩
  obtain ⟨n, c, hn, hp⟩ := (C03.decrypt_accepts_iff prims t key i hfit).1 hok
  by_cases h : t.decryptWithAssertions M prims key' i' = .err .cryptoError
  · exact .inl h
  · right
    have h2 : t.decryptWithAssertions M prims key' i' ≠ .panic := by
      intro hp'
      rw [C12.decrypt_panic_iff] at hp'
      exact hok.2 ((C12.decrypt_panic_iff prims t key i).2 hp')
    refine ⟨n, c, _, hp, hn, localTag_length .., ?_⟩
    rcases local_commits t t key key' i i' hfit hfit2 n c n c _ hn hn (localTag_length ..) hp hp hok
      ⟨h, h2⟩ with h | h
    · exact absurd h.1 hne
    · exact h

/-! ### PIE-wrapped keys -/

/-- Two PIE-wrapped keys with the same tag that two wrapping keys accept are the same wrapped key,
and the wrapping keys are the same, or two different ones of the hash inputs at hand have hashes
with the same first 32 bytes. (V3 cuts the authentication key to 32 bytes.) -/
theorem pie_commits {k k' : WKind} (w : PieWrappedKey v k) (w' : PieWrappedKey v k')
    (wk wk' : Key prims v .Local) (ht : w.tag = w'.tag)
    (hok : w.unwrapKey prims wk ≠ .err .cryptoError)
    (hok' : w'.unwrapKey prims wk' ≠ .err .cryptoError) :
    (wk = wk' ∧ k = k' ∧ w.nonce = w'.nonce ∧ w.wrappedKey.1 = w'.wrappedKey.1) ∨
    Collide 32 (pieInputs v k.kind wk.key w.nonce.1 w.wrappedKey.1)
      (pieInputs v k'.kind wk'.key w'.nonce.1 w'.wrappedKey.1) := by
  have e := (C35.authentic_iff w wk).1 hok
  have e' := (C35.authentic_iff w' wk').1 hok'
  rw [← ht] at e'
  have e := e.symm.trans e'
  rcases mac_commits 32 (by rw [pieAuthKey_length]; decide)
      (by rw [pieAuthKey_length, pieAuthKey_length]) (congrArg (List.take 32) e) with ⟨h1, h2⟩ | h
  · obtain ⟨-, h3, h4, h5⟩ := C35.pieTagged_inj h2
    have h1 : (Spec.mac prims v wk.key.1 (Spec.pieAuthInput w.nonce.1)).take 32 =
        (Spec.mac prims v wk'.key.1 (Spec.pieAuthInput w'.nonce.1)).take 32 := by
      cases v
      · exact h1
      · exact congrArg (List.take 32) h1
    rcases mac_commits 32 (by rw [len]; cases v <;> decide)
        (by rw [len, len]) h1 with ⟨h6, -⟩ | h
    · left
      refine ⟨?_, h3, h4, h5⟩
      cases wk; cases wk'; exact congrArg Key.mk (Subtype.ext h6)
    · exact .inr (h.mono (fun _ => List.mem_append_left _) (fun _ => List.mem_append_left _))
  · exact .inr (h.mono (fun _ => List.mem_append_right _) (fun _ => List.mem_append_right _))

/-- A PIE-wrapped key that one wrapping key accepts gives `CryptoError` under every other wrapping
key, or two different ones of the hash inputs at hand have hashes with the same first 32 bytes. -/
theorem pie_other_key {k : WKind} (w : PieWrappedKey v k) (wk wk' : Key prims v .Local)
    (hne : wk ≠ wk') (hok : w.unwrapKey prims wk ≠ .err .cryptoError) :
    w.unwrapKey prims wk' = .err .cryptoError ∨
    Collide 32 (pieInputs v k.kind wk.key w.nonce.1 w.wrappedKey.1)
      (pieInputs v k.kind wk'.key w.nonce.1 w.wrappedKey.1) := by
  by_cases h : w.unwrapKey prims wk' = .err .cryptoError
  · exact .inl h
  · rcases pie_commits w w wk wk' rfl hok h with h | h
    · exact absurd h.1 hne
    · exact .inr h

/-! ### Sealed keys -/

/-- Length of the shared secret. -/
def secretLen : Ver → Nat
  | .V3 => 48
  | .V4 => 32

theorem secret_length {sk : Key prims v .Secret} {epk : BytesN (pkeEpkLen v)} {xk : Bytes}
    (h : unsealSecret prims sk epk = some xk) : xk.length = secretLen v := by
  cases v
  · have h : (prims.p384Parse epk.1).map (fun e => (prims.p384Dh sk.key e).1) = some xk := h
    rw [Option.map_eq_some_iff] at h
    obtain ⟨e, -, rfl⟩ := h
    exact len _
  · have h : some _ = some xk := h
    rw [← Option.some.inj h]
    exact len _

theorem sealAuthKey_len (xk epk pk : Bytes) :
    (sealAuthKey prims v xk epk pk).length = Spec.tagLen v := by
  cases v
  · exact len (prims.sha384 _)
  · exact len (prims.blake2b 32 _)

theorem hash_commits {a b : Bytes} (e : digest v (plain v a) = digest v (plain v b)) :
    a = b ∨ (plain v a ≠ plain v b ∧ (digest v (plain v a)).take 48 = (digest v (plain v b)).take 48) := by
  by_cases h : plain v a = plain v b
  · exact .inl (plain_inj h)
  · exact .inr ⟨h, congrArg _ e⟩

theorem seal_tag_commits {xk xk' c c' pk pk' : Bytes} {epk epk' : BytesN (pkeEpkLen v)}
    (hx : xk.length = xk'.length)
    (e : Spec.sealTag prims v xk epk.1 pk c = Spec.sealTag prims v xk' epk'.1 pk' c') :
    (xk = xk' ∧ epk = epk' ∧ pk = pk' ∧ c = c') ∨
      Collide 48 (sealInputs v xk epk.1 pk c) (sealInputs v xk' epk'.1 pk' c') := by
  rcases mac_commits 48 (by rw [sealAuthKey_len]; cases v <;> decide)
      (by rw [sealAuthKey_len, sealAuthKey_len]) (congrArg (List.take 48) e) with ⟨h1, h2⟩ | h
  · obtain ⟨h3, h4⟩ := C45.sealTagged_inj h2
    have h1 : digest v (plain v (Spec.sealKdfInput v 2 xk epk.1 pk)) =
        digest v (plain v (Spec.sealKdfInput v 2 xk' epk'.1 pk')) := by
      cases v <;> exact h1
    rcases hash_commits h1 with h | h
    · left
      unfold Spec.sealKdfInput at h
      have h := (List.cons.inj h).2
      rw [List.append_assoc, List.append_assoc, List.append_assoc, List.append_assoc] at h
      obtain ⟨h5, h6⟩ := List.append_inj (List.append_cancel_left h) hx
      exact ⟨h5, h3, (List.append_inj h6 (by rw [len, len])).2, h4⟩
    · exact .inr ⟨_, List.mem_cons_self, _, List.mem_cons_self, h⟩
  · exact .inr (h.mono (fun _ => List.mem_cons_of_mem _) (fun _ => List.mem_cons_of_mem _))

/-- Two sealed keys with the same tag that two secret keys open are the same sealed key and open to
the same key, and they were opened for the same recipient: the same secret key in V3, and in V4 a
public key with the same X25519 form. Otherwise two different ones of the hash inputs at hand have
the same hash. -/
theorem seal_commits (w w' : SealedKey v) (sk sk' : Key prims v .Secret)
    (key key' : Key prims v .Local) (ht : w.tag = w'.tag)
    (hok : w.unsealKey prims sk = .ok key) (hok' : w'.unsealKey prims sk' = .ok key') :
    (w = w' ∧ key = key' ∧ sealPub prims sk.publicKey = sealPub prims sk'.publicKey ∧
      (v = .V3 → sk = sk')) ∨
    ∃ xk xk', unsealSecret prims sk w.ephemeralPublicKey = some xk ∧
      unsealSecret prims sk' w'.ephemeralPublicKey = some xk' ∧
      Collide 48
        (sealInputs v xk w.ephemeralPublicKey.1 (sealPub prims sk.publicKey) w.encryptedDataKey.1)
        (sealInputs v xk' w'.ephemeralPublicKey.1 (sealPub prims sk'.publicKey)
          w'.encryptedDataKey.1) := by
  obtain ⟨xk, h1, h2⟩ := (C45.authentic_iff w sk).1 ⟨key, hok⟩
  obtain ⟨xk', h1', h2'⟩ := (C45.authentic_iff w' sk').1 ⟨key', hok'⟩
  have e := h2.symm.trans ((congrArg Subtype.val ht).trans h2')
  rcases seal_tag_commits (by rw [secret_length h1, secret_length h1']) e with
    ⟨rfl, h3, h4, h5⟩ | h
  · left
    have hw : w = w' := by
      cases w; cases w'
      simp only [SealedKey.mk.injEq] at *
      exact ⟨ht, h3, Subtype.ext h5⟩
    subst hw
    rw [SealedKey.unsealKey_eq, h1] at hok
    rw [SealedKey.unsealKey_eq, h1', ← h4] at hok'
    refine ⟨rfl, ?_, h4, ?_⟩
    · have := hok.symm.trans hok'
      exact Res.ok.inj this
    · rintro rfl
      have h6 : (prims.p384Compress sk.publicKey.key).1 = (prims.p384Compress sk'.publicKey.key).1 := h4
      have h7 := Real.laws.p384Parse_compress sk.publicKey.key
      rw [h6, Real.laws.p384Parse_compress] at h7
      obtain ⟨s, -, hs⟩ := C65.v3_publicKey_bijective sk.publicKey
      exact (hs sk rfl).trans (hs sk' (congrArg Key.mk (Option.some.inj h7))).symm
  · exact .inr ⟨xk, xk', h1, h1', h⟩

/-! ### Password-wrapped keys -/

theorem pwAuthKey_len (k : BytesN 32) : (pwAuthKey prims v k).length = Spec.tagLen v := by
  cases v
  · exact len (prims.sha384 _)
  · exact len (prims.blake2b 32 _)

/-- Two password-wrapped keys with the same tag that two passwords open are the same wrapped key, and
the two passwords derive the same key (C71 says which do in V3), or two different ones of the hash
inputs at hand have the same hash. -/
theorem pw_commits {k k' : WKind} (w : PwWrappedKey v k) (w' : PwWrappedKey v k') (pw pw' : Bytes)
    (ht : w.tag = w'.tag)
    (hok : w.unwrapKey prims pw ≠ .err .cryptoError ∧ w.unwrapKey prims pw ≠ .panic)
    (hok' : w'.unwrapKey prims pw' ≠ .err .cryptoError ∧ w'.unwrapKey prims pw' ≠ .panic) :
    (k = k' ∧ w.salt = w'.salt ∧ w.settings = w'.settings ∧ w.nonce = w'.nonce ∧
      w.edk.1 = w'.edk.1 ∧
      pwKdf prims v pw w.salt w.settings = pwKdf prims v pw' w.salt w.settings) ∨
    Collide 48
      (pwInputs k.kind (pwKey prims (specParams w.settings) pw w.salt.1) w.salt.1
        (specParams w.settings) w.nonce.1 w.edk.1)
      (pwInputs k'.kind (pwKey prims (specParams w'.settings) pw' w'.salt.1) w'.salt.1
        (specParams w'.settings) w'.nonce.1 w'.edk.1) := by
  obtain ⟨⟨v1, v2⟩, e⟩ := (C42.authentic_iff w pw).1 hok
  obtain ⟨⟨v1', v2'⟩, e'⟩ := (C42.authentic_iff w' pw').1 hok'
  have e := e.symm.trans ((congrArg Subtype.val ht).trans e')
  rcases mac_commits 48 (by rw [pwAuthKey_len]; cases v <;> decide)
      (by rw [pwAuthKey_len, pwAuthKey_len]) (congrArg (List.take 48) e) with ⟨h1, h2⟩ | h
  · obtain ⟨h3, h4, h5, h6, h7⟩ := C42.pwTagged_inj h2
    have h1 : digest v (plain v (0xfe :: (pwKey prims (specParams w.settings) pw w.salt.1).1)) =
        digest v (plain v (0xfe :: (pwKey prims (specParams w'.settings) pw' w'.salt.1).1)) := by
      cases v <;> exact h1
    rcases hash_commits h1 with h | h
    · left
      refine ⟨h3, h4, h5, h6, h7, ?_⟩
      have h := (List.cons.inj h).2
      rw [← h4, ← h5] at h
      rw [pwKdf_eq, pwKdf_eq, if_pos ((C37.kdfOk_iff ..).2 ⟨v1, v2⟩),
        if_pos ((C37.kdfOk_iff ..).2 ⟨v1, fun hv => v2' hv⟩), Subtype.ext h]
    · exact .inr ⟨_, List.mem_cons_self, _, List.mem_cons_self, h⟩
  · exact .inr (h.mono (fun _ => List.mem_cons_of_mem _) (fun _ => List.mem_cons_of_mem _))

/-! ### The hypotheses are met -/

/-- A token under any key, with the actual algorithms, and another key. -/
example (v : Ver) (key : Key prims v .Local) : ∃ (t : SecuredToken v .Local Bytes Sample.Raw)
    (n c tag : Bytes) (key' : Key prims v .Local), key ≠ key' ∧
    PartsFit (header v .Local (Payload.suffix Sample.Raw)) t.payload t.encodedFooter (asc "ia") ∧
    n.length = 32 ∧ c.length = 5 ∧ tag.length = Spec.tagLen v ∧ t.payload = n ++ c ++ tag ∧
    t.decryptWithAssertions Bytes prims key (asc "ia") ≠ .err .cryptoError ∧
    t.decryptWithAssertions Bytes prims key (asc "ia") ≠ .panic := by
  obtain ⟨tok, h⟩ := ((C01.encrypt_outcome prims (Sample.builder v .Local Sample.Raw)
    key (asc "ia") Toy.tape).2 Toy.tape_ok).2.2 (asc "hello") (asc "kid") rfl rfl
  have hf : tok.encodedFooter = asc "kid" := by
    have := (C19.encrypt_footer _ _ _ _ _ _ _ h).2
    exact (Option.some.inj this).symm
  have hd := C01.local_roundtrip_direct prims _ _ _ _ _ tok h (by intro m hm; cases hm; rfl)
  obtain ⟨m, n, c, t, hm, hp, -, hn, hc, ht⟩ := C21.local_layout _ _ _ _ _ _ _ h
  have hm' : m = asc "hello" := by cases hm; rfl
  have hk : ∃ key' : Key prims v .Local, key ≠ key' := by
    have e : ∀ a b : BytesN 32, a ≠ b → ∃ key' : Key prims v .Local, key ≠ key' := by
      intro a b hab
      by_cases h : key = Key.mk a
      · refine ⟨Key.mk b, fun h' => hab ?_⟩
        exact (Key.mk.inj (h.symm.trans h'))
      · exact ⟨_, h⟩
    exact e ⟨List.replicate 32 0, rfl⟩ ⟨List.replicate 32 1, rfl⟩ (by decide)
  obtain ⟨key', hk⟩ := hk
  refine ⟨tok, n, c, t, key', hk, ?_, hn, by rw [hc, hm']; rfl, ht, hp, by rw [hd]; simp, by rw [hd]; simp⟩
  apply sample_partsFit
  · rw [hp]
    simp only [List.length_append, hn, hc, ht, hm']
    cases v <;> decide
  · rw [hf]; decide
  · decide

/-- Wrapped, sealed and password-wrapped keys that open. -/
example (v : Ver) (key wk : Key prims v .Local) (sk : Key prims v .Secret) :
    (∃ w : PieWrappedKey v .Local, w.unwrapKey prims wk ≠ .err .cryptoError) ∧
    (∃ w : SealedKey v, w.unsealKey prims sk = .ok key) ∧
    (∃ w : PwWrappedKey v .Local, w.unwrapKey prims (asc "pw") ≠ .err .cryptoError ∧
      w.unwrapKey prims (asc "pw") ≠ .panic) := by
  refine ⟨?_, ?_, ?_⟩
  · obtain ⟨w, -, -, -, -, h⟩ := C62.pie_roundtrip (k := .Local) key wk C43.sampleRng (by decide)
    exact ⟨w, by rw [h]; simp⟩
  · obtain ⟨w, -, -, -, -, -, h⟩ := C62.seal_roundtrip key sk C43.sampleRng (C43.sampleRng_enough v)
    exact ⟨w, h⟩
  · obtain ⟨w, -, -, -, -, h⟩ := C62.pw_roundtrip (k := .Local) key (asc "pw") C43.sampleRng
      (fun _ => by decide) (by cases v <;> decide)
    exact ⟨w, by rw [h]; simp, by rw [h]; simp⟩

end Pasta.C73
