import Verif.Props.Actual

/-!
# C71: V3 passwords that are the same password

V3 derives the key with PBKDF2, which uses the password as a key of HMAC. HMAC fills keys up to its
block of 128 bytes with zeros and hashes longer ones first. So some different passwords are the same
password. With the actual algorithms (`Real.prims`).
-/

namespace Pasta.C71

open Real (prims)

variable {k : WKind}

/-- The HMAC-SHA384 key that a password stands for (RFC 2104, section 2): hashed if it is longer than
a block, then filled with zeros to a block. -/
def hmacKey (pw : Bytes) : Bytes :=
  let key := if pw.length > 128 then (Real.sha384 pw).1 else pw
  key ++ List.replicate (128 - key.length) 0

theorem pbkdf2_congr {pw pw' : Bytes} (h : hmacKey pw = hmacKey pw') (salt : Bytes) (r : UInt32) :
    prims.pbkdf2Sha384 pw salt r = prims.pbkdf2Sha384 pw' salt r := by
  show Real.pbkdf2Sha384 pw salt r = Real.pbkdf2Sha384 pw' salt r
  unfold hmacKey at h
  unfold Real.pbkdf2Sha384
  dsimp only at h ⊢
  rw [h]

theorem kdf_congr {pw pw' : Bytes} (h : hmacKey pw = hmacKey pw') (salt : BytesN (pwSaltLen .V3))
    (st : KdfState .V3) : pwKdf prims .V3 pw salt st = pwKdf prims .V3 pw' salt st :=
  congrArg Res.ok (pbkdf2_congr h salt.1 st.iterations)

/-- Passwords that stand for the same HMAC key unwrap the same wrapped keys, to the same keys … -/
theorem same_unwrap {pw pw' : Bytes} (h : hmacKey pw = hmacKey pw') (w : PwWrappedKey .V3 k) :
    w.unwrapKey prims pw = w.unwrapKey prims pw' := by
  unfold PwWrappedKey.unwrapKey
  rw [kdf_congr h w.salt]

/-- … and make the same wraps. -/
theorem same_wrap {pw pw' : Bytes} (h : hmacKey pw = hmacKey pw') (key : Key prims .V3 k.kind)
    (st : KdfState .V3) (rng : Rng) :
    key.pwWrapWithSettings pw st rng = key.pwWrapWithSettings pw' st rng := by
  unfold Key.pwWrapWithSettings
  simp only [kdf_congr h]

theorem hmacKey_short {pw : Bytes} (h : pw.length ≤ 128) :
    hmacKey pw = pw ++ List.replicate (128 - pw.length) 0 := by
  unfold hmacKey
  rw [if_neg (by omega)]

theorem hmacKey_zeros {pw : Bytes} {n : Nat} (h : pw.length + n ≤ 128) :
    hmacKey (pw ++ List.replicate n 0) = hmacKey pw := by
  rw [hmacKey_short (by simpa using h), hmacKey_short (by omega), List.append_assoc,
    List.replicate_append_replicate]
  simp only [List.length_append, List.length_replicate]
  congr 2
  omega

theorem hmacKey_long {pw : Bytes} (h : 128 < pw.length) :
    hmacKey pw = hmacKey (Real.sha384 pw).1 := by
  have hl := (Real.sha384 pw).2
  rw [hmacKey_short (pw := (Real.sha384 pw).1) (by omega)]
  unfold hmacKey
  rw [if_pos h]

/-- Zero bytes at the end of a password of up to 128 bytes make no difference. -/
theorem trailing_zeros (pw : Bytes) (n : Nat) (h : pw.length + n ≤ 128) (w : PwWrappedKey .V3 k) :
    w.unwrapKey prims (pw ++ List.replicate n 0) = w.unwrapKey prims pw :=
  same_unwrap (hmacKey_zeros h) w

/-- A password of more than 128 bytes can be replaced by its SHA-384 hash. -/
theorem long_password (pw : Bytes) (h : 128 < pw.length) (w : PwWrappedKey .V3 k) :
    w.unwrapKey prims pw = w.unwrapKey prims (Real.sha384 pw).1 :=
  same_unwrap (hmacKey_long h) w

/-- So the wanted property 'a wrapped key opens with no password but its own' is false in V3: every
password that is not exactly 128 bytes long has a different one that opens all the same wraps. -/
theorem second_password (pw : Bytes) (h : pw.length ≠ 128) :
    ∃ pw', pw' ≠ pw ∧ ∀ (k : WKind) (w : PwWrappedKey .V3 k),
      w.unwrapKey prims pw' = w.unwrapKey prims pw := by
  by_cases hl : pw.length < 128
  · refine ⟨pw ++ List.replicate 1 0, ?_, fun k w => trailing_zeros pw 1 (by omega) w⟩
    intro e
    have := congrArg List.length e
    simp at this
  · refine ⟨(Real.sha384 pw).1, ?_, fun k w => (long_password pw (by omega) w).symm⟩
    intro e
    have := congrArg List.length e
    rw [(Real.sha384 pw).2] at this
    omega

/-- Passwords of up to 128 bytes stand for the same HMAC key only if they differ in zero bytes at the
end: there is no other such exception. -/
theorem hmacKey_short_iff (pw pw' : Bytes) (h : pw.length ≤ 128) (h' : pw'.length ≤ 128) :
    hmacKey pw = hmacKey pw' ↔
      ∃ a n n', pw = a ++ List.replicate n 0 ∧ pw' = a ++ List.replicate n' 0 := by
  constructor
  · have key : ∀ pw pw' : Bytes, pw.length ≤ pw'.length → pw'.length ≤ 128 → hmacKey pw = hmacKey pw' →
        pw' = pw ++ List.replicate (pw'.length - pw.length) 0 := by
      intro pw pw' hl h' e
      rw [hmacKey_short (by omega), hmacKey_short h'] at e
      have e := congrArg (List.take pw'.length) e
      rw [List.take_left, List.take_append, List.take_of_length_le hl, List.take_replicate,
        Nat.min_eq_left (by omega)] at e
      exact e.symm
    intro e
    rcases Nat.le_total pw.length pw'.length with hl | hl
    · exact ⟨pw, 0, _, by simp, key pw pw' hl h' e⟩
    · exact ⟨pw', _, 0, key pw' pw hl h e.symm, by simp⟩
  · rintro ⟨a, n, n', rfl, rfl⟩
    rw [hmacKey_zeros (by simpa using h), hmacKey_zeros (by simpa using h')]

/-- What Argon2id hashes first (RFC 9106, section 3.2). -/
def argon2Input (pw salt : Bytes) (m t p : UInt32) : Bytes :=
  leBytes 4 p.toNat ++ leBytes 4 32 ++ leBytes 4 m.toNat ++ leBytes 4 t.toNat ++ leBytes 4 0x13 ++
    leBytes 4 2 ++ leBytes 4 pw.length ++ pw ++ leBytes 4 salt.length ++ salt ++ leBytes 4 0 ++
    leBytes 4 0

/-- V4 has no such exception: the key depends on the password and the salt only through one hash,
whose inputs are different for different passwords. -/
theorem v4_inputs_differ (m t p : UInt32) (pw pw' salt salt' : Bytes) :
    (Real.blake2b 64 (argon2Input pw salt m t p) = Real.blake2b 64 (argon2Input pw' salt' m t p) →
      prims.argon2id pw salt m t p = prims.argon2id pw' salt' m t p) ∧
    (pw.length < 2 ^ 32 → pw'.length < 2 ^ 32 → pw ≠ pw' →
      argon2Input pw salt m t p ≠ argon2Input pw' salt' m t p) := by
  constructor
  · intro e
    show Real.fit 32 (Real.Argon2.argon2id pw salt [] [] m.toNat t.toNat p.toNat 32) =
      Real.fit 32 (Real.Argon2.argon2id pw' salt' [] [] m.toNat t.toNat p.toNat 32)
    have input : ∀ pw salt : Bytes, Real.Argon2.le32 p.toNat ++ Real.Argon2.le32 32 ++
        Real.Argon2.le32 m.toNat ++ Real.Argon2.le32 t.toNat ++ Real.Argon2.le32 0x13 ++
        Real.Argon2.le32 2 ++ Real.Argon2.le32 pw.length ++ pw ++ Real.Argon2.le32 salt.length ++
        salt ++ Real.Argon2.le32 0 ++ [] ++ Real.Argon2.le32 0 ++ [] =
        argon2Input pw salt m t p := by
      intro pw salt
      simp [argon2Input, Real.Argon2.le32]
    unfold Real.Argon2.argon2id
    dsimp only [List.length_nil]
    rw [input, input, e]
  · intro h h' hne e
    refine hne ?_
    unfold argon2Input at e
    simp only [List.append_assoc] at e
    have e := List.append_cancel_left (List.append_cancel_left (List.append_cancel_left
      (List.append_cancel_left (List.append_cancel_left (List.append_cancel_left e)))))
    obtain ⟨e1, e2⟩ := List.append_inj e (by rw [leBytes_length, leBytes_length])
    have e1 := congrArg leNat e1
    rw [leNat_leBytes, leNat_leBytes, Nat.mod_eq_of_lt (by omega), Nat.mod_eq_of_lt (by omega)] at e1
    exact (List.append_inj e2 e1).1

/-- The same of `pw_wrap` and `unwrap_key`: for each setting they accept there is one function that
gives the V4 key encryption key from that hash, for every password and salt. -/
theorem v4_through_one_hash (st : KdfState .V4) (ok : argon2ParamsOk (st.mem / 1024) st.time st.para) :
    ∃ g : BytesN 64 → BytesN 32, ∀ (pw : Bytes) (salt : BytesN (pwSaltLen .V4)), pw.length < 2 ^ 32 →
      pwKdf prims .V4 pw salt st =
        .ok (g (Real.blake2b 64 (argon2Input pw salt.1 (st.mem / 1024) st.time st.para))) := by
  classical
  refine ⟨fun h => if e : ∃ q : Bytes × Bytes,
      Real.blake2b 64 (argon2Input q.1 q.2 (st.mem / 1024) st.time st.para) = h then
      prims.argon2id e.choose.1 e.choose.2 (st.mem / 1024) st.time st.para else BytesN.fill 32 0, ?_⟩
  intro pw salt hl
  have e : ∃ q : Bytes × Bytes,
      Real.blake2b 64 (argon2Input q.1 q.2 (st.mem / 1024) st.time st.para) =
        Real.blake2b 64 (argon2Input pw salt.1 (st.mem / 1024) st.time st.para) := ⟨(pw, salt.1), rfl⟩
  have h : pwKdf prims .V4 pw salt st =
      .ok (prims.argon2id pw salt.1 (st.mem / 1024) st.time st.para) := by
    unfold pwKdf
    dsimp only
    rw [if_pos ok, if_pos (by omega)]
    rfl
  rw [h]
  dsimp only
  rw [dif_pos e]
  exact congrArg Res.ok ((v4_inputs_differ _ _ _ _ _ _ _).1 e.choose_spec).symm

/-- The default settings are accepted. -/
example : argon2ParamsOk ((KdfState.default .V4).mem / 1024) (KdfState.default .V4).time
    (KdfState.default .V4).para := by decide

/-- An example: "secret" and "secret\0", and a wrap that both open. -/
example (key : Key prims .V3 .Local) (st : KdfState .V3) (rng : Rng) (hr : 48 ≤ rng.length) :
    ∃ w rng', Key.pwWrapWithSettings (k := .Local) key (asc "secret") st rng = .ok (w, rng') ∧
      w.unwrapKey prims (asc "secret" ++ [0]) = .ok key := by
  obtain ⟨w, _, h, _, _, h'⟩ := C37.pw_roundtrip (k := .Local) Real.laws key (asc "secret") st rng
    trivial (fun e => nomatch e) hr
  exact ⟨w, _, h, (trailing_zeros _ 1 (by decide) w).trans h'⟩

end Pasta.C71
