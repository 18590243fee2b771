import Verif.Lemmas.Rng
import Verif.Lemmas.Pbkw
import Verif.Props.Samples
import Verif.Props.Keys

/-!
# C58: random sources

Everything that needs randomness works with any source, draws whole blocks of fixed sizes from it,
in order, and its result is a function of those blocks and of nothing else the source holds.
-/

namespace Pasta.C58

open Spec (Delivers DeliversFor Consumer inOrder)

variable {P : Prims} {v : Ver} {ρ : Type} (G : RngCore ρ) (s s' : ρ)

/-! ## Each operation, on any source

The left-hand side is the code run on an arbitrary source; on the right the same operation on the
tape of delivered blocks, for which the other properties are stated. -/

/-- `new_random` of a local key: one block of 32 bytes. -/
theorem local_key (k : Key P v .Local) :
    Key.localRandomFrom G P v s = .ok (k, s') ↔
      DeliversFor G s s' [32] (Key.localRandom P v) k :=
  deliversFor_one G s s' 32 (fun n => .ok (⟨n⟩ : Key P v .Local)) k

/-- `new_random` of a V4 secret key: one block of 32 bytes. -/
theorem v4_secret_key (t : Nat) (k : Key P .V4 .Secret) :
    Key.secretRandomFrom G t P .V4 s = some (.ok (k, s')) ↔
      DeliversFor G s s' [32] (Key.secretRandom P .V4) k := by
  have := deliversFor_one G s s' 32 (fun n => .ok (⟨n⟩ : Key P .V4 .Secret)) k
  rw [show Key.secretRandomFrom G t P .V4 s = some (do
    let (n, s) ← G.fill 32 s; let x ← (.ok ⟨n⟩ : Res (Key P .V4 .Secret)); return (x, s)) from rfl,
    Option.some.injEq, this]
  rfl

/-- `new_random` of a V3 secret key: blocks of 48 bytes until one is accepted. -/
theorem v3_secret_key (k : Key P .V3 .Secret) :
    (∃ t, Key.secretRandomFrom G t P .V3 s = some (.ok (k, s'))) ↔
      ∃ j, DeliversFor G s s' (List.replicate j 48) (Key.secretRandom P .V3) k := by
  have := deliversFor_scalar G s s' (fun n => .ok (⟨n⟩ : Key P .V3 .Secret)) k
  refine Iff.trans (exists_congr fun t => ?_) this
  rw [show Key.secretRandomFrom G t P .V3 s = (p384RandomFrom G t s).map (fun r => do
    let (n, s) ← r; let x ← (.ok ⟨n⟩ : Res (Key P .V3 .Secret)); return (x, s)) from by
      show (p384RandomFrom G t s).bind _ = _
      cases p384RandomFrom G t s <;> rfl]

/-- Encryption: one block of 32 bytes, the nonce. -/
theorem encrypt {M F E : Type} [Payload E] [MessageEncoding E M] [Footer F]
    (b : TokenBuilder v .Local M F E) (key : Key P v .Local) (i : Bytes)
    (tok : SecuredToken v .Local F E) :
    b.encryptFrom G P key i s = .ok (tok, s') ↔
      DeliversFor G s s' [32] (b.encryptWithAssertionsAndRng P key i) tok :=
  deliversFor_one G s s' 32 (fun n => b.tok.encryptInner P key n i) tok

/-- PIE wrapping after the nonce is drawn. -/
def pieBody {k : WKind} (key : Key P v k.kind) (wrappingKey : Key P v .Local) (n : BytesN 32) :
    Res (PieWrappedKey v k) := do
  let wk : BytesN 32 := wrappingKey.key
  let ek ← pieEncKeyMac P v wk.1 ([0x80] ++ n.1)
  let (ek, n2) := BytesN.split 32 (ivLen v) (pieEncKeyLen_eq v) ek
  let ak ← pieAuthKeyMac P v wk.1 ([0x81] ++ n.1)
  let c := applyKeystreamN (stream P v ek n2) key.toBytes
  let tag ← pieTagMac P v (ak.1.take 32) (pieTagInput v k n.1 c.1)
  return { wrappedKey := c, nonce := n, tag := tag }

/-- PIE wrapping: one block of 32 bytes, the nonce. -/
theorem wrap_pie {k : WKind} (key : Key P v k.kind) (wk : Key P v .Local) (w : PieWrappedKey v k) :
    key.wrapPieFrom G wk s = .ok (w, s') ↔ DeliversFor G s s' [32] (key.wrapPie wk) w := by
  have h1 : key.wrapPieFrom G wk s =
      (do let (n, s) ← G.fill 32 s; let x ← pieBody key wk n; return (x, s)) := by
    unfold Key.wrapPieFrom pieBody
    simp only [Res.bind_assoc', Res.ok_bind, Res.pure_def]
  have h2 : key.wrapPie wk =
      fun r => (do let (n, r) ← fillBytes 32 r; let x ← pieBody key wk n; return (x, r)) := by
    funext r
    unfold Key.wrapPie pieBody
    simp only [Res.bind_assoc', Res.ok_bind, Res.pure_def]
  rw [h1, h2]
  exact deliversFor_one G s s' 32 _ w

/-- Password wrapping after the draws. -/
def pwBody {k : WKind} (key : Key P v k.kind) (settings : KdfState v) (salt : BytesN (pwSaltLen v))
    (kk : BytesN 32) (n : BytesN (ivLen v)) : Res (PwWrappedKey v k) := do
  let ek := splitEk v (pwKeyHash P v ([0xff] ++ kk.1))
  let ak := pwKeyHash P v ([0xfe] ++ kk.1)
  let edk := applyKeystreamN (stream P v ek n) key.toBytes
  let tag ← pwTagMac P v ak.1 (pwTagInput v k salt.1 settings n.1 edk.1)
  return { salt, state := settings, nonce := n, edk, tag }

/-- Password wrapping: the salt (32 bytes in V3, 16 in V4), then the nonce (16 and 24). -/
theorem wrap_pw {k : WKind} (key : Key P v k.kind) (pw : Bytes) (st : KdfState v)
    (w : PwWrappedKey v k) :
    key.pwWrapFrom G pw st s = .ok (w, s') ↔
      DeliversFor G s s' (match v with | .V3 => [32, 16] | .V4 => [16, 24])
        (key.pwWrapWithSettings pw st) w := by
  have h1 : key.pwWrapFrom G pw st s =
      (do let (n, s) ← G.fill (pwSaltLen v) s; let y ← pwKdf P v pw n st
          let (n', s) ← G.fill (ivLen v) s; let x ← pwBody key st n y n'; return (x, s)) := by
    unfold Key.pwWrapFrom pwBody
    simp only [Res.bind_assoc', Res.ok_bind, Res.pure_def]
  have h2 : key.pwWrapWithSettings pw st =
      fun r => (do let (n, r) ← fillBytes (pwSaltLen v) r; let y ← pwKdf P v pw n st
                   let (n', r) ← fillBytes (ivLen v) r; let x ← pwBody key st n y n'
                   return (x, r)) := by
    funext r
    unfold Key.pwWrapWithSettings pwBody
    simp only [Res.bind_assoc', Res.ok_bind, Res.pure_def]
  rw [h1, h2]
  have := deliversFor_two G s s' (pwSaltLen v) (ivLen v) (fun n => pwKdf P v pw n st)
    (fun n y n' => pwBody key st n y n') w
  rw [this]
  cases v <;> rfl

/-- V4 sealing after the draw. -/
def sealBodyV4 (key : Key P .V4 .Local) (pk : Key P .V4 .Public) (eskBytes : BytesN 32) :
    Res (SealedKey .V4) := do
  let xpk := P.edToMontgomery pk.key
  let esk := scalarModOrder (clampInteger eskBytes)
  let epk := P.montMulBase esk
  let xk := P.montMul esk xpk
  let ek := P.blake2b 32 (pkeKdfInput .V4 1 xk.1 epk.1 xpk.1)
  let ak := P.blake2b 32 (pkeKdfInput .V4 2 xk.1 epk.1 xpk.1)
  let n := P.blake2b 24 (epk.1 ++ xpk.1)
  let edk : BytesN 32 := applyKeystreamN (P.xchacha20 ek n) key.toBytes
  let tag ← P.blakeMac 32 ak.1 (pkeTagInput .V4 epk.1 edk.1)
  return { tag := tag, ephemeralPublicKey := epk, encryptedDataKey := edk }

/-- V4 sealing: one block of 32 bytes, the ephemeral key. -/
theorem seal_v4 (t : Nat) (key : Key P .V4 .Local) (pk : Key P .V4 .Public) (w : SealedKey .V4) :
    key.sealKeyFrom G t pk s = some (.ok (w, s')) ↔ DeliversFor G s s' [32] (key.sealKey pk) w := by
  have h1 : key.sealKeyFrom G t pk s =
      some (do let (n, s) ← G.fill 32 s; let x ← sealBodyV4 key pk n; return (x, s)) := by
    show some (sealV4From G P key pk s) = _
    unfold sealV4From sealBodyV4
    simp only [Res.bind_assoc', Res.ok_bind, Res.pure_def]
  have h2 : key.sealKey pk =
      fun r => (do let (n, r) ← fillBytes 32 r; let x ← sealBodyV4 key pk n; return (x, r)) := by
    funext r
    show sealV4 P key pk r = _
    unfold sealV4 sealBodyV4
    simp only [Res.bind_assoc', Res.ok_bind, Res.pure_def]
  rw [h1, h2, Option.some.injEq]
  exact deliversFor_one G s s' 32 _ w

/-- V3 sealing after the ephemeral key is drawn. -/
def sealBodyV3 (key : Key P .V3 .Local) (sealingKey : Key P .V3 .Public) (esk : P384Scalar) :
    Res (SealedKey .V3) := do
  let pk : P.P384Point := sealingKey.key
  let pkBytes : BytesN 49 := sealingKey.toBytes
  let epk := P.p384Compress (P.p384Public esk)
  let xk := P.p384Dh esk pk
  let (ek, n) := BytesN.split 32 16 rfl (P.sha384 (pkeKdfInput .V3 1 xk.1 epk.1 pkBytes.1))
  let ak := P.sha384 (pkeKdfInput .V3 2 xk.1 epk.1 pkBytes.1)
  let edk : BytesN 32 := applyKeystreamN (P.aesCtr64 ek n) key.toBytes
  let tag ← P.hmac ak.1 (pkeTagInput .V3 epk.1 edk.1)
  return { tag := tag, ephemeralPublicKey := epk, encryptedDataKey := edk }

/-- V3 sealing: blocks of 48 bytes until one is accepted as the ephemeral key. -/
theorem seal_v3 (key : Key P .V3 .Local) (pk : Key P .V3 .Public) (w : SealedKey .V3) :
    (∃ t, key.sealKeyFrom G t pk s = some (.ok (w, s'))) ↔
      ∃ j, DeliversFor G s s' (List.replicate j 48) (key.sealKey pk) w := by
  have h1 : ∀ t, key.sealKeyFrom G t pk s = (p384RandomFrom G t s).map
      (fun r => do let (n, s) ← r; let x ← sealBodyV3 key pk n; return (x, s)) := by
    intro t
    show sealV3From G t P key pk s = _
    unfold sealV3From sealBodyV3
    cases p384RandomFrom G t s with
    | none => rfl
    | some r => simp only [Res.bind_assoc', Res.ok_bind, Res.pure_def]; rfl
  have h2 : key.sealKey pk =
      fun r => (do let (n, r) ← p384Random r; let x ← sealBodyV3 key pk n; return (x, r)) := by
    funext r
    show sealV3 P key pk r = _
    unfold sealV3 sealBodyV3
    simp only [Res.bind_assoc', Res.ok_bind, Res.pure_def]
  simp only [h1, h2]
  exact deliversFor_scalar G s s' _ w

/-! ## The tape is one of the sources, and every operation takes a segment of it -/

theorem delivers_tape (t t' : Rng) (blocks : List Bytes)
    (h : Delivers RngCore.tape t blocks t') : t = blocks.flatten ++ t' := by
  induction h with
  | done => rfl
  | draw h _ ih =>
    have h := fillBytes_eq_ok.1 h
    rw [h, ih]
    simp

theorem consumer_of {α : Type} {f : Rng → Res (α × Rng)}
    (h : ∀ t x t', f t = .ok (x, t') → ∃ sizes, DeliversFor RngCore.tape t t' sizes f x) :
    Consumer f := by
  intro t x t' ht
  obtain ⟨sizes, blocks, h1, h2, h3⟩ := h t x t' ht
  exact ⟨blocks.flatten, delivers_tape _ _ _ h1, h3⟩

theorem local_key_consumer : Consumer (Key.localRandom P v) :=
  consumer_of fun t x t' h => ⟨_, (local_key RngCore.tape t t' x).1 h⟩

theorem tape_scalar (t t' : Rng) (x : P384Scalar) (h : p384Random t = .ok (x, t')) :
    ∃ n, p384RandomFrom RngCore.tape n t = some (.ok (x, t')) := by
  have key : ∀ (n : Nat) (t : Rng), t.length ≤ n → p384Random t = .ok (x, t') →
      ∃ n, p384RandomFrom RngCore.tape n t = some (.ok (x, t')) := by
    intro n
    induction n with
    | zero =>
      intro t ht h
      rw [p384Random, dif_neg (by omega)] at h
      cases h
    | succ n ih =>
      intro t ht h
      rw [p384Random] at h
      by_cases hl : 48 ≤ t.length
      · rw [dif_pos hl] at h
        have hf : RngCore.tape.fill 48 t = .ok (⟨t.take 48, by simp; omega⟩, t.drop 48) := by
          show fillBytes 48 t = _
          unfold fillBytes
          rw [dif_pos hl]
        dsimp only at h
        split at h
        · rename_i hb
          refine ⟨1, ?_⟩
          simp only [p384RandomFrom, hf, dif_pos hb, h]
        · rename_i hb
          obtain ⟨m, hm⟩ := ih (t.drop 48) (by simp; omega) h
          refine ⟨m + 1, ?_⟩
          simp only [p384RandomFrom, hf, dif_neg hb, hm]
      · rw [dif_neg hl] at h
        cases h
  exact key t.length t (Nat.le_refl _) h

theorem secret_key_consumer : Consumer (Key.secretRandom P v) := by
  cases v with
  | V4 => exact consumer_of fun t x t' h =>
      ⟨_, (v4_secret_key RngCore.tape t t' 0 x).1 (congrArg some h)⟩
  | V3 =>
    refine consumer_of fun t x t' h => ?_
    have h' : (p384Random t >>= fun y => .ok ((⟨y.1⟩ : Key P .V3 .Secret), y.2)) = .ok (x, t') := h
    obtain ⟨⟨y, r⟩, h1, h2⟩ := Res.bind_eq_ok.1 h'
    cases h2
    obtain ⟨n, hn⟩ := tape_scalar t r y h1
    obtain ⟨j, hj⟩ := (v3_secret_key RngCore.tape t r (⟨y⟩ : Key P .V3 .Secret)).1 ⟨n, by
      show (p384RandomFrom RngCore.tape n t).bind _ = _
      rw [hn]; rfl⟩
    exact ⟨_, hj⟩

theorem encrypt_consumer {M F E : Type} [Payload E] [MessageEncoding E M] [Footer F]
    (b : TokenBuilder v .Local M F E) (key : Key P v .Local) (i : Bytes) :
    Consumer (b.encryptWithAssertionsAndRng P key i) :=
  consumer_of fun t x t' h => ⟨_, (encrypt RngCore.tape t t' b key i x).1 h⟩

theorem wrap_pie_consumer {k : WKind} (key : Key P v k.kind) (wk : Key P v .Local) :
    Consumer (key.wrapPie (k := k) wk) :=
  consumer_of fun t x t' h => ⟨_, (wrap_pie RngCore.tape t t' key wk x).1 h⟩

theorem wrap_pw_consumer {k : WKind} (key : Key P v k.kind) (pw : Bytes) (st : KdfState v) :
    Consumer (key.pwWrapWithSettings (k := k) pw st) :=
  consumer_of fun t x t' h => ⟨_, (wrap_pw RngCore.tape t t' key pw st x).1 h⟩

theorem seal_consumer (key : Key P v .Local) (pk : Key P v .Public) : Consumer (key.sealKey pk) := by
  cases v with
  | V4 => exact consumer_of fun t x t' h =>
      ⟨_, (seal_v4 RngCore.tape t t' 0 key pk x).1 (congrArg some h)⟩
  | V3 =>
    refine consumer_of fun t x t' h => ?_
    have h2 : key.sealKey pk t =
        (do let (n, r) ← p384Random t; let x ← sealBodyV3 key pk n; return (x, r)) := by
      show sealV3 P key pk t = _
      unfold sealV3 sealBodyV3
      simp only [Res.bind_assoc', Res.ok_bind, Res.pure_def]
    rw [h2] at h
    obtain ⟨⟨y, r⟩, h1, h3⟩ := Res.bind_eq_ok.1 h
    obtain ⟨n, hn⟩ := tape_scalar t r y h1
    obtain ⟨j, hj⟩ := (seal_v3 RngCore.tape t t' key pk x).1 ⟨n, by
      show sealV3From RngCore.tape n P key pk t = _
      rw [← h3]
      unfold sealV3From sealBodyV3
      rw [hn]
      simp only [Res.bind_assoc', Res.ok_bind, Res.pure_def]
      rfl⟩
    exact ⟨_, hj⟩

/-- Post-processing of the result (such as printing it) keeps the property. -/
theorem Consumer.map {α β : Type} {f : Rng → Res (α × Rng)} (hf : Consumer f) (g : α → Res β) :
    Consumer (fun r => do let (x, r) ← f r; let y ← g x; return (y, r)) := by
  intro t y t' h
  simp only [Res.bind_eq_ok, Res.pure_def, Res.ok.injEq, Prod.mk.injEq, Prod.exists] at h
  obtain ⟨x, r, h1, y', h2, rfl, rfl⟩ := h
  obtain ⟨used, h3, h4⟩ := hf t x r h1
  refine ⟨used, h3, fun rest => ?_⟩
  simp only [h4, h2, Res.ok_bind, Res.pure_def]

/-- Any sequence of such operations on one source: each gets its own segment of the random bytes,
the segments are disjoint, consecutive and in order, nothing is drawn and thrown away, and each
result is a function of its own segment alone. -/
theorem segments {α : Type} (fs : List (Rng → Res (α × Rng))) (hfs : ∀ f ∈ fs, Consumer f)
    (tape rest : Rng) (xs : List α) (h : inOrder fs tape = .ok (xs, rest)) :
    ∃ segs : List Bytes, segs.length = fs.length ∧ xs.length = fs.length ∧
      tape = segs.flatten ++ rest ∧
      ∀ j (hj : j < fs.length) (hs : j < segs.length) (hx : j < xs.length) (r : Rng),
        fs[j] (segs[j] ++ r) = .ok (xs[j], r) := by
  induction fs generalizing tape xs with
  | nil =>
    simp only [inOrder, Res.ok.injEq, Prod.mk.injEq] at h
    obtain ⟨rfl, rfl⟩ := h
    exact ⟨[], rfl, rfl, rfl, fun j hj => absurd hj (by simp)⟩
  | cons f fs ih =>
    simp only [inOrder, Res.bind_eq_ok, Res.pure_def, Prod.exists] at h
    obtain ⟨x, r1, h1, xs', r2, h2, h3⟩ := h
    cases h3
    obtain ⟨used, h4, h5⟩ := hfs f (by simp) tape x r1 h1
    obtain ⟨segs, i1, i2, i3, i4⟩ := ih (fun g hg => hfs g (by simp [hg])) r1 xs' h2
    refine ⟨used :: segs, by simp [i1], by simp [i2], by rw [h4, i3]; simp, ?_⟩
    intro j hj hs hx r
    cases j with
    | zero => exact h5 r
    | succ j => exact i4 j (by simpa using hj) (by simpa using hs) (by simpa using hx) r

/-! ## Too few random bytes: panic, never a short nonce or key -/

theorem short_panics {M F E : Type} [Payload E] [MessageEncoding E M] [Footer F] {k : WKind}
    (b : TokenBuilder v .Local M F E) (key lk : Key P v .Local) (i : Bytes) (hk : Key P v k.kind)
    (pw : Bytes) (st : KdfState v) (pk : Key P v .Public) (tape : Rng) :
    (tape.length < 32 → b.encryptWithAssertionsAndRng P key i tape = .panic) ∧
    (tape.length < 32 → hk.wrapPie (k := k) key tape = .panic) ∧
    (tape.length < pwSaltLen v + ivLen v → hk.pwWrapWithSettings (k := k) pw st tape = .panic) ∧
    (tape.length < (if v = .V3 then 48 else 32) → lk.sealKey pk tape = .panic) ∧
    (tape.length < 32 → Key.localRandom P v tape = .panic) ∧
    (tape.length < (if v = .V3 then 48 else 32) → Key.secretRandom P v tape = .panic) := by
  have hf : ∀ n, tape.length < n → fillBytes n tape = .panic := by
    intro n h; unfold fillBytes; rw [dif_neg (by omega)]
  have hp : tape.length < 48 → p384Random tape = .panic := by
    intro h; rw [p384Random, dif_neg (by omega)]
  refine ⟨?_, ?_, ?_, ?_, ?_, ?_⟩
  · intro h; unfold TokenBuilder.encryptWithAssertionsAndRng; rw [hf 32 h]; rfl
  · intro h; unfold Key.wrapPie; rw [hf 32 h]; rfl
  · intro h
    unfold Key.pwWrapWithSettings
    by_cases h1 : tape.length < pwSaltLen v
    · rw [hf _ h1]; rfl
    · have : ∃ x, fillBytes (pwSaltLen v) tape = .ok (x, tape.drop (pwSaltLen v)) := by
        unfold fillBytes; rw [dif_pos (by omega)]; exact ⟨_, rfl⟩
      obtain ⟨x, hx⟩ := this
      rw [hx]
      have h2 : fillBytes (ivLen v) (tape.drop (pwSaltLen v)) = .panic := by
        unfold fillBytes; rw [dif_neg (by simp; omega)]
      simp only [Res.ok_bind]
      rw [pwKdf_eq]
      split
      · simp only [Res.ok_bind, h2, Res.panic_bind]
      · rfl
  · intro h
    cases v
    · show sealV3 P lk pk tape = _
      unfold sealV3; rw [hp h]; rfl
    · show sealV4 P lk pk tape = _
      unfold sealV4; rw [hf 32 h]; rfl
  · intro h; unfold Key.localRandom; rw [hf 32 h]; rfl
  · intro h
    cases v
    · show (p384Random tape >>= _) = _
      rw [hp h]; rfl
    · show (fillBytes 32 tape >>= _) = _
      rw [hf 32 h]; rfl

/-! ## `FakeRng` -/

/-- A `FakeRng` whose position is within its bytes is a tape: the bytes from the position on. Beyond
them, or with a position outside, it panics. -/
theorem fake_fill {N : Nat} (n : Nat) (r : FakeRng N) :
    r.fillBytes n =
      if r.start ≤ N then
        match fillBytes n (r.bytes.1.drop r.start) with
        | .ok (b, _) => .ok (b, { r with start := r.start + n })
        | .err e => .err e
        | .panic => .panic
      else .panic := by
  have hl := r.bytes.2
  unfold FakeRng.fillBytes fillBytes
  by_cases h : r.start ≤ N
  · rw [if_neg (by omega), if_pos h]
    by_cases h2 : n ≤ N - r.start
    · rw [dif_neg (by omega), dif_pos (by rw [List.length_drop, hl]; omega)]
    · rw [dif_pos (by omega), dif_neg (by rw [List.length_drop, hl]; omega)]
  · rw [if_pos (by omega), if_neg h]

/-- A `FakeRng` delivers consecutive segments of its bytes and advances its position by exactly what
it delivered. -/
theorem fake_delivers {N : Nat} (r r' : FakeRng N) (blocks : List Bytes)
    (hr : r.start ≤ N) :
    Delivers (FakeRng.core N) r blocks r' ↔
      r'.bytes = r.bytes ∧ r'.start = r.start + blocks.flatten.length ∧ r'.start ≤ N ∧
        r.bytes.1.drop r.start = blocks.flatten ++ r'.bytes.1.drop r'.start := by
  induction blocks generalizing r with
  | nil =>
    constructor
    · intro h
      have := h.nil_inv
      subst this
      simp [hr]
    · rintro ⟨h1, h2, -, -⟩
      obtain ⟨b, st⟩ := r
      obtain ⟨b', st'⟩ := r'
      simp only [List.flatten_nil, List.length_nil, Nat.add_zero] at h1 h2
      subst h1 h2
      exact .done _
  | cons b bs ih =>
    have hl := r.bytes.2
    constructor
    · intro h
      obtain ⟨r1, hb, h1, h2⟩ := h.cons_inv
      have h1 : r.fillBytes b.length = .ok (⟨b, hb⟩, r1) := h1
      rw [fake_fill, if_pos hr] at h1
      split at h1
      · rename_i b' t' hf
        cases h1
        have hf := fillBytes_eq_ok.1 hf
        have hle : r.start + b.length ≤ N := by
          have := congrArg List.length hf
          rw [List.length_drop, List.length_append, hl] at this
          simp only at this
          omega
        obtain ⟨i1, i2, i3, i4⟩ := (ih { r with start := r.start + b.length } hle).1 h2
        simp only at i1 i2 i4
        refine ⟨i1, by rw [i2]; simp; omega, i3, ?_⟩
        have e : t' = r.bytes.1.drop (r.start + b.length) := by
          rw [← List.drop_drop, hf]
          simp
        rw [hf, e, i4]
        simp
      · cases h1
      · cases h1
    · rintro ⟨h1, h2, h3, h4⟩
      have h2' : r'.start = r.start + b.length + bs.flatten.length := by
        rw [h2]; simp; omega
      have e : r.bytes.1.drop (r.start + b.length) = bs.flatten ++ r'.bytes.1.drop r'.start := by
        rw [← List.drop_drop, h4]
        simp
      have hfill : r.fillBytes b.length = .ok (⟨b, rfl⟩, { r with start := r.start + b.length }) := by
        rw [fake_fill, if_pos hr, h4, List.flatten_cons, List.append_assoc,
          fillBytes_append b.length ⟨b, rfl⟩]
      refine .draw (b := ⟨b, rfl⟩) hfill ((ih _ (by simp only; omega)).2 ⟨h1, h2', h3, e⟩)

/-- So an operation that succeeds on a `FakeRng` gives what it gives on the tape of the remaining
bytes, and leaves the position after the bytes used. -/
theorem fake_op {N : Nat} {α : Type} (r r' : FakeRng N) (sizes : List Nat)
    (f : Rng → Res (α × Rng)) (x : α) (hr : r.start ≤ N)
    (h : DeliversFor (FakeRng.core N) r r' sizes f x) :
    f (r.bytes.1.drop r.start) = .ok (x, r.bytes.1.drop r'.start) ∧ r'.bytes = r.bytes ∧
      r'.start = r.start + sizes.sum ∧ r'.start ≤ N := by
  obtain ⟨blocks, h1, h2, h3⟩ := h
  obtain ⟨i1, i2, i3, i4⟩ := (fake_delivers r r' blocks hr).1 h1
  refine ⟨?_, i1, ?_, i3⟩
  · rw [i4, i1]; exact h3 _
  · rw [i2, List.length_flatten, h2]

/-- `Arbitrary` fills a fresh `FakeRng`; every one can come out. -/
theorem fake_arbitrary (N : Nat) :
    (∀ u, (FakeRng.arbitrary N u).1.start = 0) ∧
    ∀ b : BytesN N, ∃ u, FakeRng.arbitrary N u = (⟨b, 0⟩, []) := by
  refine ⟨fun u => rfl, fun b => ⟨b.1, ?_⟩⟩
  have := b.2
  have e : arbitraryBytes N b.1 = (b, []) := by
    unfold arbitraryBytes
    rw [List.drop_of_length_le (by omega)]
    congr 1
    apply Subtype.ext
    simp [this, List.take_of_length_le (Nat.le_of_eq this)]
  simp only [FakeRng.arbitrary, e]

/-- Key generation for fuzzing: local and V4 secret keys always come out, a V3 secret key exactly
when the (zero-padded) 48 bytes are a number from 1 to n-1; and every key can come out. The bytes
used are taken from the input, the others are left for what is generated next. -/
theorem arbitrary_keys (P : Prims) :
    (∀ v u, (Key.arbitraryLocal P v u).1.toBytes.1 = u.take 32 ++ List.replicate (32 - u.length) 0) ∧
    (∀ v (k : Key P v .Local), ∃ u, (Key.arbitraryLocal P v u).1 = k) ∧
    (∀ u, (Key.arbitrarySecret P .V4 u).isSome) ∧
    (∀ u, (Key.arbitrarySecret P .V3 u).isSome ↔
      let x := beNat (u.take 48 ++ List.replicate (48 - u.length) 0)
      0 < x ∧ x < p384Order) ∧
    (∀ v (k : Key P v .Secret), ∃ u r, Key.arbitrarySecret P v u = some (k, r)) ∧
    (∀ v u, (Key.arbitraryLocal P v u).2 = u.drop 32) ∧
    (∀ v u k r, Key.arbitrarySecret P v u = some (k, r) →
      let n := match v with | .V3 => 48 | .V4 => 32
      k.toBytes.1.take n = u.take n ++ List.replicate (n - u.length) 0 ∧ r = u.drop n) ∧
    (∀ N u, (FakeRng.arbitrary N u).1.bytes.1 = u.take N ++ List.replicate (N - u.length) 0 ∧
      (FakeRng.arbitrary N u).1.start = 0 ∧ (FakeRng.arbitrary N u).2 = u.drop N) := by
  have e : ∀ n (b : BytesN n), arbitraryBytes n b.1 = (b, []) := by
    intro n b
    have := b.2
    unfold arbitraryBytes
    rw [List.drop_of_length_le (by omega)]
    congr 1
    apply Subtype.ext
    simp [this, List.take_of_length_le (Nat.le_of_eq this)]
  refine ⟨fun v u => rfl, ?_, fun u => rfl, ?_, ?_, fun v u => rfl, ?_, fun N u => ⟨rfl, rfl, rfl⟩⟩
  · intro v k
    refine ⟨k.key.1, ?_⟩
    simp only [Key.arbitraryLocal, e]
  · intro u
    simp only [Key.arbitrarySecret, Key.p384ScalarFromSlice]
    rw [dif_pos (arbitraryBytes 48 u).1.2]
    by_cases h : p384ScalarOk ⟨(arbitraryBytes 48 u).1.1, (arbitraryBytes 48 u).1.2⟩
    · rw [dif_pos h]
      exact ⟨fun _ => h, fun _ => rfl⟩
    · rw [dif_neg h]
      exact ⟨fun h' => by simp at h', fun h' => absurd h' h⟩
  · intro v k
    cases v with
    | V4 =>
      refine ⟨k.key.1, [], ?_⟩
      simp only [Key.arbitrarySecret, e]
    | V3 =>
      refine ⟨k.key.1.1, [], ?_⟩
      simp only [Key.arbitrarySecret, e, Key.p384ScalarFromSlice]
      rw [dif_pos k.key.1.2, dif_pos k.key.2]
      rfl
  · intro v u k r h
    cases v with
    | V4 =>
      simp only [Key.arbitrarySecret, Option.some.injEq, Prod.mk.injEq] at h
      obtain ⟨rfl, rfl⟩ := h
      refine ⟨?_, rfl⟩
      exact List.take_left' (l₁ := (arbitraryBytes 32 u).1.1) (arbitraryBytes 32 u).1.2
    | V3 =>
      simp only [Key.arbitrarySecret, Key.p384ScalarFromSlice] at h
      rw [dif_pos (arbitraryBytes 48 u).1.2] at h
      by_cases hs : p384ScalarOk ⟨(arbitraryBytes 48 u).1.1, (arbitraryBytes 48 u).1.2⟩
      · rw [dif_pos hs] at h
        simp only [Option.bind_eq_bind, Option.bind_some, Option.pure_def, Option.some.injEq, Prod.mk.injEq] at h
        obtain ⟨rfl, rfl⟩ := h
        refine ⟨?_, rfl⟩
        exact List.take_of_length_le (Nat.le_of_eq (arbitraryBytes 48 u).1.2)
      · rw [dif_neg hs] at h
        simp at h

/-! ## Concrete cases -/

/-- A source that counts its calls and fills each block with the count. -/
def counting : RngCore Nat where
  fill n s := .ok (BytesN.fill n (UInt8.ofNat s), s + 1)

/-- A source that breaks down (panics) at its third call. -/
def failing : RngCore Nat where
  fill n s := if s < 2 then .ok (BytesN.fill n 7, s + 1) else .panic

example : ∃ tok, (Sample.builder .V4 .Local Sample.Raw).encryptFrom counting Toy.prims
    (Toy.localKey .V4) [] 5 = .ok (tok, 6) :=
  ⟨_, (encrypt counting 5 6 _ _ _ _).2 ⟨[List.replicate 32 5],
    .draw (b := BytesN.fill 32 5) rfl (.done _), rfl, fun _ =>
      (encrypt_ok_iff _ _ _ _ _ _).2 ⟨_, _, _, rfl, rfl, rfl, rfl, rfl⟩⟩⟩

/-- Rejection: the first block is zero, the second is accepted. -/
example : (Key.secretRandomFrom counting 5 Toy.prims .V3 0).isSome = true ∧
    Key.secretRandomFrom counting 1 Toy.prims .V3 0 = none := by
  constructor
  · decide +kernel
  · simp [Key.secretRandomFrom, p384RandomFrom, counting, show ¬ p384ScalarOk (BytesN.fill 48 0) by
      decide +kernel]

/-- A breakdown in the middle of password wrapping comes out as a panic. -/
example : Key.localRandomFrom failing Toy.prims .V4 2 = .panic := rfl

/-- Two keys from one tape. -/
example : inOrder [fun r => (do let (k, r) ← Key.localRandom Toy.prims .V4 r; return (k.toBytes.1, r)),
      fun r => (do let (k, r) ← Key.localRandom Toy.prims .V3 r; return (k.toBytes.1, r))]
      (List.replicate 32 1 ++ List.replicate 32 2 ++ [3]) =
    .ok ([List.replicate 32 1, List.replicate 32 2], [3]) := by decide +kernel

example : (FakeRng.core 40).fill 32 ⟨BytesN.fill 40 9, 4⟩ =
      .ok (BytesN.fill 32 9, ⟨BytesN.fill 40 9, 36⟩) ∧
    (FakeRng.core 40).fill 32 ⟨BytesN.fill 40 9, 9⟩ = .panic ∧
    (FakeRng.core 40).fill 1 ⟨BytesN.fill 40 9, 41⟩ = .panic := ⟨rfl, rfl, rfl⟩

end Pasta.C58
