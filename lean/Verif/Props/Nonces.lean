import Verif.Props.Commit
import Verif.Props.OneMessage
import Verif.Curve.Sample384

/-!
# C86: nonces of signatures

A signature is made with a secret number, its nonce, which shows as the first half of the signature.
Two different messages signed with the same nonce give the signing key away (`v3_repeated`,
`v4_repeated`). Both signature schemes derive the nonce from the key and the message (RFC 8032,
RFC 6979), so that a nonce repeats only for the same message, or if two hash inputs collide, which
the theorems name (`v3_nonce`, `v4_nonce`). For V3 a first half also repeats if two nonces are opposite
modulo the group order.

The algorithms are the actual ones (`Real.prims`).
-/

namespace Pasta

open Real (prims)
open Curve
open Spec (header)

namespace C86

/-! ### Specification -/

/-- A token with message `m`, footer `f`, assertion `i`, payload encoding suffix `suf` and signature
`sig` was signed with `key`. -/
def Issued {v : Ver} (key : Key prims v .Secret) (suf m f i sig : Bytes) : Prop :=
  ∃ (M F E : Type) (_ : Payload E) (_ : MessageEncoding E M) (_ : Footer F)
    (b : TokenBuilder v .Public M F E) (t : SecuredToken v .Public F E),
    b.signWithAssertions prims key i = .ok t ∧ Payload.suffix E = suf ∧ t.payload = m ++ sig ∧
    t.encodedFooter = f ∧ sig.length = Spec.sigLen v ∧ PartsFit (header v .Public suf) m f i

/-- Such a token gets past the authentication under `key`. -/
def Accepted {v : Ver} (key : Key prims v .Public) (suf m f i sig : Bytes) : Prop :=
  ∃ (M F E : Type) (_ : Payload E) (_ : MessageDecoding E M) (t : SecuredToken v .Public F E),
    t.verifyWithAssertions M prims key i ≠ .err .cryptoError ∧
    t.verifyWithAssertions M prims key i ≠ .panic ∧
    Payload.suffix E = suf ∧ t.payload = m ++ sig ∧ t.encodedFooter = f ∧
    sig.length = Spec.sigLen v ∧ PartsFit (header v .Public suf) (m ++ sig) f i

/-- The bytes that are signed. -/
def signedV3 (key : Key prims .V3 .Secret) (suf m f i : Bytes) : Bytes :=
  Spec.v3Signed prims (prims.p384Public key.key) (header .V3 .Public suf) m f i

def signedV4 (suf m f i : Bytes) : Bytes := Spec.v4Signed (header .V4 .Public suf) m f i

/-- V4: the second half of the hash of the seed, which goes into the nonces. -/
def hashPrefix (key : Key prims .V4 .Secret) : Bytes := (Real.sha512 key.key.1).1.drop 32

/-- V4: the secret scalar, the clamped first half of the hash of the seed. -/
def secretScalar (key : Key prims .V4 .Secret) : ℕ :=
  Spec.decodeScalar25519 (Real.fit 32 (Real.sha512 key.key.1).1)

/-- V3: the number that is signed. -/
def digestNumber (key : Key prims .V3 .Secret) (suf m f i : Bytes) : ℕ :=
  beNat (Real.sha384 (signedV3 key suf m f i)).1

/-- V4: the challenge of a signature. -/
def challengeNumber (key : Key prims .V4 .Secret) (R suf m f i : Bytes) : ℕ :=
  leNat (Real.sha512 (R ++ key.publicKey.toBytes.1 ++ signedV4 suf m f i)).1

/-! #### What is hashed for a nonce of RFC 6979 -/

abbrev Inputs := List (C73.Input .V3)

/-- Step h: candidates until one is in range -/
def loopInputs : ℕ → Bytes → Bytes → Inputs
  | 0, _, _ => []
  | fuel + 1, K, V =>
    let V' := (Real.hmacSha384 K V).1
    let K' := (Real.hmacSha384 K (V' ++ [0])).1
    C73.macInputs .V3 K V ++
      if 0 < beNat V' ∧ beNat V' < p384Order then []
      else C73.macInputs .V3 K (V' ++ [0]) ++ C73.macInputs .V3 K' V' ++
        loopInputs fuel K' (Real.hmacSha384 K' V').1

/-- All hash inputs of the nonce for the secret key `x` and the digest `z`, by HMAC calls: steps d, e,
f, g, h of RFC 6979, 3.2 -/
def nonceInputs (x : Bytes) (z : ℕ) : Inputs :=
  let hb := beBytes 48 (z % p384Order)
  let V := List.replicate 48 (1 : UInt8)
  let K := List.replicate 48 (0 : UInt8)
  let K1 := (Real.hmacSha384 K (V ++ [0] ++ x ++ hb)).1
  let V1 := (Real.hmacSha384 K1 V).1
  let K2 := (Real.hmacSha384 K1 (V1 ++ [1] ++ x ++ hb)).1
  let V2 := (Real.hmacSha384 K2 V1).1
  C73.macInputs .V3 K (V ++ [0] ++ x ++ hb) ++ C73.macInputs .V3 K1 V ++
    C73.macInputs .V3 K1 (V1 ++ [1] ++ x ++ hb) ++ C73.macInputs .V3 K2 V1 ++ loopInputs 16 K2 V2

/-! ### Lemmas: RFC 6979 -/

open C73 (Collide macInputs mac_commits len)

/-- The state of the generator after a candidate is refused -/
def next (s : Bytes × Bytes) : Bytes × Bytes :=
  let V' := (Real.hmacSha384 s.1 s.2).1
  let K' := (Real.hmacSha384 s.1 (V' ++ [0])).1
  (K', (Real.hmacSha384 K' V').1)

def roundInputs (s : Bytes × Bytes) : Inputs :=
  macInputs .V3 s.1 s.2 ++ macInputs .V3 s.1 ((Real.hmacSha384 s.1 s.2).1 ++ [0])

theorem mac384 {k k' m m' : Bytes} (h : k.length = 48) (h' : k'.length = 48)
    (e : (Real.hmacSha384 k m).1 = (Real.hmacSha384 k' m').1) :
    (k = k' ∧ m = m') ∨ Collide (v := .V3) 48 (macInputs .V3 k m) (macInputs .V3 k' m') :=
  mac_commits (v := .V3) 48 (by omega) (by omega) (congrArg (List.take 48) e)

theorem next_length (s : Bytes × Bytes) : (next s).1.length = 48 := len _

theorem next_commits {s s' : Bytes × Bytes} (h : s.1.length = 48) (h' : s'.1.length = 48)
    (e : (next s).1 = (next s').1) : s = s' ∨ Collide (v := .V3) 48 (roundInputs s) (roundInputs s') := by
  rcases mac384 h h' e with ⟨_, h2⟩ | hc
  · rcases mac384 h h' (List.append_inj_left' h2 rfl) with ⟨h3, h4⟩ | hc
    · exact .inl (Prod.ext h3 h4)
    · exact .inr (hc.mono (fun _ => List.mem_append_left _) (fun _ => List.mem_append_left _))
  · exact .inr (hc.mono (fun _ => List.mem_append_right _) (fun _ => List.mem_append_right _))

theorem loop_spec (fuel : ℕ) : ∀ (s : Bytes × Bytes) (k : ℕ),
    Real.P384.nonceLoop fuel s.1 s.2 = some k →
    ∃ i, k = beNat (Real.hmacSha384 (next^[i] s).1 (next^[i] s).2).1 ∧
      (∀ j < i, ∀ x ∈ roundInputs (next^[j] s), x ∈ loopInputs fuel s.1 s.2) ∧
      (∀ x ∈ macInputs .V3 (next^[i] s).1 (next^[i] s).2, x ∈ loopInputs fuel s.1 s.2) := by
  induction fuel with
  | zero => intro s k h; cases h
  | succ fuel ih =>
    intro s k h
    unfold Real.P384.nonceLoop at h
    simp only at h
    split at h
    · rename_i hr
      cases h
      refine ⟨0, rfl, fun j hj => absurd hj (Nat.not_lt_zero _), fun x hx => ?_⟩
      unfold loopInputs
      exact List.mem_append_left _ hx
    · rename_i hr
      obtain ⟨i, h1, h2, h3⟩ := ih (next s) k h
      have hsub : ∀ x ∈ loopInputs fuel (next s).1 (next s).2, x ∈ loopInputs (fuel + 1) s.1 s.2 := by
        intro x hx
        unfold loopInputs
        simp only
        have hr' : ¬ (0 < beNat (Real.hmacSha384 s.1 s.2).1 ∧
          beNat (Real.hmacSha384 s.1 s.2).1 < p384Order) := hr
        rw [if_neg hr']
        exact List.mem_append_right _ (List.mem_append_right _ hx)
      refine ⟨i + 1, h1, ?_, fun x hx => hsub x (h3 x hx)⟩
      intro j hj x hx
      cases j with
      | zero =>
        unfold loopInputs
        simp only
        have hr' : ¬ (0 < beNat (Real.hmacSha384 s.1 s.2).1 ∧
          beNat (Real.hmacSha384 s.1 s.2).1 < p384Order) := hr
        rw [if_neg hr']
        rcases List.mem_append.1 hx with hx | hx
        · exact List.mem_append_left _ hx
        · exact List.mem_append_right _ (List.mem_append_left _ (List.mem_append_left _ hx))
      | succ j => exact hsub x (h2 j (Nat.lt_of_succ_lt_succ hj) x hx)

/-- The state before the first candidate -/
def start (x : Bytes) (z : ℕ) : Bytes × Bytes :=
  let hb := beBytes 48 (z % p384Order)
  let V := List.replicate 48 (1 : UInt8)
  let K := List.replicate 48 (0 : UInt8)
  let K1 := (Real.hmacSha384 K (V ++ [0] ++ x ++ hb)).1
  let V1 := (Real.hmacSha384 K1 V).1
  let K2 := (Real.hmacSha384 K1 (V1 ++ [1] ++ x ++ hb)).1
  (K2, (Real.hmacSha384 K2 V1).1)

theorem start_length (x : Bytes) (z : ℕ) : (start x z).1.length = 48 := len _

theorem iterate_length {s : Bytes × Bytes} (h : s.1.length = 48) (i : ℕ) :
    (next^[i] s).1.length = 48 := by
  cases i with
  | zero => exact h
  | succ i => rw [Function.iterate_succ_apply']; exact next_length _

theorem start_mem {x : Bytes} {z : ℕ} : ∀ y ∈ loopInputs 16 (start x z).1 (start x z).2,
    y ∈ nonceInputs x z := fun _ hy => List.mem_append_right _ hy

/-- The HMAC call whose result is the key of the first state -/
theorem start_key (x : Bytes) (z : ℕ) : ∃ K V : Bytes, K.length = 48 ∧ V.length = 48 ∧
    (start x z).1 = (Real.hmacSha384 K (V ++ [1] ++ x ++ beBytes 48 (z % p384Order))).1 ∧
    ∀ y ∈ macInputs .V3 K (V ++ [1] ++ x ++ beBytes 48 (z % p384Order)), y ∈ nonceInputs x z :=
  ⟨_, _, len _, len _, rfl, fun _ hy =>
    List.mem_append_left _ (List.mem_append_left _ (List.mem_append_right _ hy))⟩

theorem states_commit {x x' : Bytes} {z z' : ℕ} (hx : x.length = 48) (hx' : x'.length = 48) :
    ∀ i j, next^[i] (start x z) = next^[j] (start x' z') →
      (∀ l < i, ∀ y ∈ roundInputs (next^[l] (start x z)), y ∈ nonceInputs x z) →
      (∀ l < j, ∀ y ∈ roundInputs (next^[l] (start x' z')), y ∈ nonceInputs x' z') →
      (x = x' ∧ z % p384Order = z' % p384Order) ∨
        Collide (v := .V3) 48 (nonceInputs x z) (nonceInputs x' z') := by
  obtain ⟨K, V, hK, hV, e1, m1⟩ := start_key x z
  obtain ⟨K', V', hK', hV', e1', m1'⟩ := start_key x' z'
  intro i
  induction i with
  | zero =>
    intro j e hi hj
    cases j with
    | zero =>
      have e : (start x z).1 = (start x' z').1 := congrArg Prod.fst e
      rw [e1, e1'] at e
      rcases mac384 hK hK' e with ⟨-, h⟩ | hc
      · left
        obtain ⟨h1, h2⟩ := List.append_inj' h (by rw [beBytes_length, beBytes_length])
        obtain ⟨-, h3⟩ := List.append_inj' h1 (by rw [hx, hx'])
        refine ⟨h3, ?_⟩
        have := congrArg beNat h2
        rw [beNat_beBytes, beNat_beBytes] at this
        have lt : ∀ w, w % p384Order < 256 ^ 48 := fun w =>
          (Nat.mod_lt w E384.n_pos).trans E384.n_lt
        rwa [Nat.mod_eq_of_lt (lt z), Nat.mod_eq_of_lt (lt z')] at this
      · exact .inr (hc.mono m1 m1')
    | succ j =>
      rw [Function.iterate_succ_apply'] at e
      have e : (start x z).1 = _ := congrArg Prod.fst e
      rw [e1] at e
      rcases mac384 hK (iterate_length (start_length x' z') j) e with ⟨-, h⟩ | hc
      · exfalso
        have := congrArg List.length h
        simp only [List.length_append, beBytes_length, hV, hx, List.length_cons, List.length_nil,
          len] at this
        omega
      · exact .inr (hc.mono m1 (fun y hy => hj j (Nat.lt_succ_self j) y (List.mem_append_right _ hy)))
  | succ i ih =>
    intro j e hi hj
    rw [Function.iterate_succ_apply'] at e
    cases j with
    | zero =>
      have e : (start x' z').1 = _ := (congrArg Prod.fst e).symm
      rw [e1'] at e
      rcases mac384 hK' (iterate_length (start_length x z) i) e with ⟨-, h⟩ | hc
      · exfalso
        have := congrArg List.length h
        simp only [List.length_append, beBytes_length, hV', hx', List.length_cons, List.length_nil,
          len] at this
        omega
      · obtain ⟨a, ha, b, hb, hne, hd⟩ := hc
        exact .inr ⟨b, hi i (Nat.lt_succ_self i) b (List.mem_append_right _ hb), a, m1' a ha,
          Ne.symm hne, hd.symm⟩
    | succ j =>
      rw [Function.iterate_succ_apply'] at e
      rcases next_commits (iterate_length (start_length x z) i) (iterate_length (start_length x' z') j)
          (congrArg Prod.fst e) with h | hc
      · exact ih j h (fun l hl => hi l (Nat.lt_succ_of_lt hl)) (fun l hl => hj l (Nat.lt_succ_of_lt hl))
      · exact .inr (hc.mono (hi i (Nat.lt_succ_self i)) (hj j (Nat.lt_succ_self j)))

theorem beNat_inj {a b : Bytes} (hl : a.length = b.length) (h : beNat a = beNat b) : a = b := by
  rw [← beBytes_beNat a, ← beBytes_beNat b, hl, h]

/-- Equal nonces: same key and same digest modulo the order, or a collision. -/
theorem nonce_commits {x x' : Bytes} {z z' k : ℕ} (hx : x.length = 48) (hx' : x'.length = 48)
    (h : Real.P384.nonce x z = some k) (h' : Real.P384.nonce x' z' = some k) :
    (x = x' ∧ z % p384Order = z' % p384Order) ∨
      Collide (v := .V3) 48 (nonceInputs x z) (nonceInputs x' z') := by
  obtain ⟨i, h1, h2, h3⟩ := loop_spec 16 (start x z) k h
  obtain ⟨j, h1', h2', h3'⟩ := loop_spec 16 (start x' z') k h'
  have e := beNat_inj (by rw [len, len]) (h1.symm.trans h1')
  rcases mac384 (iterate_length (start_length x z) i) (iterate_length (start_length x' z') j) e with
    ⟨ha, hb⟩ | hc
  · exact states_commit hx hx' i j (Prod.ext ha hb)
      (fun l hl y hy => start_mem y (h2 l hl y hy)) (fun l hl y hy => start_mem y (h2' l hl y hy))
  · exact .inr (hc.mono (fun y hy => start_mem y (h3 y hy)) (fun y hy => start_mem y (h3' y hy)))

/-! ### Lemmas: signatures -/

instance : Fact (Nat.Prime p384Order) := ⟨prime_n384⟩

open Real.P384 (p n) in
/-- Points whose first coordinates agree modulo the group order are equal or opposite. -/
theorem same_x {k k' r : ℕ} {x x' y y' : E384.F} {hn : E384.W.Nonsingular x y}
    {hn' : E384.W.Nonsingular x' y'} (hg : k • E384.base = .some x y hn)
    (hg' : k' • E384.base = .some x' y' hn') (hx : x.val % n = r) (hx' : x'.val % n = r)
    (hbig : p - n ≤ r) :
    ((k : ZMod p384Order) = k') ∨ ((k : ZMod p384Order) + k' = 0) := by
  have val : ∀ u : E384.F, u.val % n = r → u.val = r := by
    intro u hu
    have hup : u.val < p := ZMod.val_lt u
    have := E384.p_lt_two
    rcases Nat.lt_or_ge u.val n with hlt | hge
    · rw [← hu, Nat.mod_eq_of_lt hlt]
    · rw [Nat.mod_eq_sub_mod hge, Nat.mod_eq_of_lt (by omega)] at hu
      omega
  have ex : x = x' := ZMod.val_injective _ ((val x hx).trans (val x' hx').symm)
  subst ex
  have hy : (y - y') * (y + y') = 0 := by
    have h1 := E384.on hn
    have h2 := E384.on hn'
    linear_combination h1 - h2
  rcases mul_eq_zero.1 hy with hy | hy
  · left
    have : y = y' := sub_eq_zero.1 hy
    subst this
    exact E384.smul_inj' (hg.trans hg'.symm)
  · right
    have e : k • E384.base + k' • E384.base = 0 := by
      rw [hg, hg']
      have : y = -y' := eq_neg_of_add_eq_zero_left hy
      subst this
      rw [← eq_neg_iff_add_eq_zero, WeierstrassCurve.Affine.Point.neg_some]
      simp only [E384.negY]
    rw [← add_nsmul, ← zero_nsmul E384.base] at e
    have e := E384.smul_inj' e
    push_cast at e
    exact e

/-- The nonce of a signature and the point it stands for. -/
theorem sign_nonce {sk digest s : Bytes} (h : Real.P384.sign sk digest = some s) :
    ∃ k x y, ∃ hn : E384.W.Nonsingular x y, Real.P384.nonce sk (beNat digest) = some k ∧
      0 < k ∧ k < p384Order ∧ k • E384.base = .some x y hn ∧
      x.val % Real.P384.n = beNat (s.take 48) := by
  unfold Real.P384.sign at h
  obtain ⟨k, hk, h⟩ := Option.bind_eq_some_iff.1 h
  obtain ⟨q, hq, h⟩ := Option.bind_eq_some_iff.1 h
  have hr := E384.rep_smul E384.rep_base k
  generalize hg : k • E384.base = g at hr
  rcases g with _ | ⟨x, y, hn⟩
  · rw [E384.affine_zero hr] at hq
    cases hq
  · rw [E384.affine_some hr] at hq
    cases hq
    obtain ⟨h0, h1⟩ := E384.nonceLoop_range _ _ _ _ hk
    unfold Real.P384.signWith at h
    simp only at h
    split at h
    · cases h
    · cases h
      refine ⟨k, x, y, hn, hk, h0, h1, hg, ?_⟩
      rw [List.take_left' (beBytes_length _ _), beNat_beBytes,
        Nat.mod_eq_of_lt ((Nat.mod_lt _ E384.n_pos).trans E384.n_lt)]

theorem issued_sig {v : Ver} {key : Key prims v .Secret} {suf m f i sig : Bytes}
    (h : Issued key suf m f i sig) :
    Spec.sigOf prims v key.key (header v .Public suf) m f i = some sig ∧
      PartsFit (header v .Public suf) m f i := by
  obtain ⟨M, F, E, _, _, _, b, t, ht, rfl, hp, rfl, hl, hfit⟩ := h
  obtain ⟨m', f', s, _, _, hs, rfl⟩ := (sign_ok_iff _ _ _ _).1 ht
  obtain ⟨rfl, rfl⟩ := C72.append_right_inj' (a := m') (s := s.1) hp
    (by rw [s.2, hl, sigSize_eq])
  exact ⟨signRaw_ok hs hfit.header hfit.message hfit.footer hfit.implicit, hfit⟩

theorem accepted_sig {v : Ver} {key : Key prims v .Public} {suf m f i sig : Bytes}
    (h : Accepted key suf m f i sig) :
    Spec.sigValid prims v key.key (header v .Public suf) m f i sig := by
  obtain ⟨M, F, E, _, _, t, ht, ht', rfl, hp, rfl, hl, hfit⟩ := h
  exact (C72.accepted t key i m sig (by rw [hl, sigSize_eq]) hp (hp ▸ hfit) ht ht').2

theorem v4_public_bytes (key : Key prims .V4 .Secret) :
    key.publicKey.toBytes.1 = (key.publicKey.key : Real.EdKey).1.1 := by
  have e : ∀ (P : Prims) (k : Key P .V4 .Public), k.toBytes.1 = (P.edBytes k.key).1 :=
    fun _ _ => rfl
  have e' : ∀ k : Real.EdKey, (prims.edBytes k).1 = k.1.1 := fun _ => rfl
  exact (e _ _).trans (e' _)

theorem v4_public_val (key : Key prims .V4 .Secret) : (key.publicKey.key : Real.EdKey).1 =
    E25519.enc (secretScalar key • E25519.B) := by
  have e : ∀ (P : Prims) (k : Key P .V4 .Secret), k.publicKey.key = P.edPublic k.key :=
    fun _ _ => rfl
  rw [e, E25519.edPublic_val, E25519.expand_eq]
  rfl

/-! ### Theorems -/

/-- V4: if two signed tokens, under any keys, have the same first half of the signature, then the keys
and everything signed are the same, or the hashes of two different keys have the same second half, or
two different inputs of the nonce hash have the same hash modulo the group order. -/
theorem v4_nonce {key key' : Key prims .V4 .Secret} {suf m f i sig suf' m' f' i' sig' : Bytes}
    (h : Issued key suf m f i sig) (h' : Issued key' suf' m' f' i' sig')
    (hR : sig.take 32 = sig'.take 32) :
    (key = key' ∧ suf = suf' ∧ m = m' ∧ f = f' ∧ i = i') ∨
    (key ≠ key' ∧ hashPrefix key = hashPrefix key') ∨
    ∃ a b, a ≠ b ∧ a = hashPrefix key ++ signedV4 suf m f i ∧
      b = hashPrefix key' ++ signedV4 suf' m' f' i' ∧
      leNat (Real.sha512 a).1 % ed25519Order = leNat (Real.sha512 b).1 % ed25519Order := by
  obtain ⟨hs, hfit⟩ := issued_sig h
  obtain ⟨hs', hfit'⟩ := issued_sig h'
  have first : ∀ (k : Key prims .V4 .Secret) (suf m f i sig : Bytes),
      Spec.sigOf prims .V4 k.key (header .V4 .Public suf) m f i = some sig →
      sig.take 32 = (E25519.enc ((leNat (Real.sha512 (hashPrefix k ++ signedV4 suf m f i)).1 %
        ed25519Order) • E25519.B)).1 := by
    intro k suf m f i sig hs
    have hs : some (Real.Ed.sign k.key (signedV4 suf m f i)).1 = some sig := hs
    cases hs
    show List.take 32 (Real.fit 64 (_ ++ _)).1 = _
    rw [E25519.fit_of_length (by rw [List.length_append, leBytes_length, len]),
      List.take_left' (len _), E25519.encode_rep (E25519.rep_smul E25519.rep_base _)]
    rfl
  rw [first _ _ _ _ _ _ hs, first _ _ _ _ _ _ hs'] at hR
  have e := E25519.smul_inj (Nat.mod_lt _ E25519.order_pos) (Nat.mod_lt _ E25519.order_pos)
    (E25519.enc_inj (Subtype.ext hR))
  by_cases hab : hashPrefix key ++ signedV4 suf m f i = hashPrefix key' ++ signedV4 suf' m' f' i'
  · have hl : ∀ k : Key prims .V4 .Secret, (hashPrefix k).length = 32 := by
      intro k
      unfold hashPrefix
      rw [List.length_drop, len]
    obtain ⟨h1, h2⟩ := List.append_inj hab (by rw [hl, hl])
    obtain ⟨e1, e2, e3, e4⟩ := PAE_inj4 ⟨hfit.header, hfit.message, hfit.footer, hfit.implicit⟩
      ⟨hfit'.header, hfit'.message, hfit'.footer, hfit'.implicit⟩ h2
    by_cases hk : key = key'
    · exact .inl ⟨hk, (header_inj e1).2.2, e2, e3, e4⟩
    · exact .inr (.inl ⟨hk, h1⟩)
  · exact .inr (.inr ⟨_, _, hab, rfl, rfl, e⟩)

/-- V3: if two signed tokens, under any keys, have the same first half of the signature, then the keys
and everything signed are the same, or two of the hash inputs from which the nonces are made collide,
or two different signed byte strings have digests that are equal modulo the group order, or the two
nonces add up to the group order. (Excepted are signatures whose first number is below `2^190`.) -/
theorem v3_nonce {key key' : Key prims .V3 .Secret} {suf m f i sig suf' m' f' i' sig' : Bytes}
    (h : Issued key suf m f i sig) (h' : Issued key' suf' m' f' i' sig')
    (hR : sig.take 48 = sig'.take 48) (hbig : 2 ^ 190 ≤ beNat (sig.take 48)) :
    (key = key' ∧ suf = suf' ∧ m = m' ∧ f = f' ∧ i = i') ∨
    Collide (v := .V3) 48 (nonceInputs key.toBytes.1 (digestNumber key suf m f i))
      (nonceInputs key'.toBytes.1 (digestNumber key' suf' m' f' i')) ∨
    (key = key' ∧ signedV3 key suf m f i ≠ signedV3 key' suf' m' f' i' ∧
      digestNumber key suf m f i % p384Order = digestNumber key' suf' m' f' i' % p384Order) ∨
    ∃ k k', Real.P384.nonce key.toBytes.1 (digestNumber key suf m f i) = some k ∧
      Real.P384.nonce key'.toBytes.1 (digestNumber key' suf' m' f' i') = some k' ∧
      k + k' = p384Order := by
  obtain ⟨hs, hfit⟩ := issued_sig h
  obtain ⟨hs', hfit'⟩ := issued_sig h'
  have first : ∀ (key : Key prims .V3 .Secret) (suf m f i sig : Bytes),
      Spec.sigOf prims .V3 key.key (header .V3 .Public suf) m f i = some sig →
      ∃ k x y, ∃ hn : E384.W.Nonsingular x y,
      Real.P384.nonce key.toBytes.1 (digestNumber key suf m f i) = some k ∧
      0 < k ∧ k < p384Order ∧ k • E384.base = .some x y hn ∧
      x.val % Real.P384.n = beNat (sig.take 48) := by
    intro key suf m f i sig hs
    have hs : Option.map (fun s => s.1) ((Real.P384.sign key.key.1.1
      (Real.sha384 (signedV3 key suf m f i)).1).map (Real.fit 96)) = some sig := hs
    rw [Option.map_map] at hs
    obtain ⟨s, h1, rfl⟩ := Option.map_eq_some_iff.1 hs
    have hl := E384.sign_length h1
    show ∃ k x y, ∃ hn : E384.W.Nonsingular x y, _ ∧ _ ∧ _ ∧ _ ∧
      _ = beNat (List.take 48 (Real.fit 96 s).1)
    rw [E25519.fit_of_length hl]
    exact sign_nonce h1
  obtain ⟨k, x, y, hn, hk, k0, kn, hg, hx⟩ := first _ _ _ _ _ _ hs
  obtain ⟨k', x', y', hn', hk', k0', kn', hg', hx'⟩ := first _ _ _ _ _ _ hs'
  rw [← hR] at hx'
  rcases same_x hg hg' hx hx' (Nat.le_trans (by decide +kernel) hbig) with e | e
  · rw [ZMod.natCast_eq_natCast_iff', Nat.mod_eq_of_lt kn, Nat.mod_eq_of_lt kn'] at e
    subst e
    rcases nonce_commits (len _) (len _) hk hk' with ⟨e1, e2⟩ | hc
    · have ek : key = key' := by
        cases key; cases key'
        exact congrArg Key.mk (Subtype.ext (Subtype.ext e1))
      subst ek
      by_cases hab : signedV3 key suf m f i = signedV3 key suf' m' f' i'
      · left
        obtain ⟨e1, e2, e3, e4⟩ := signedBytes_inj prims (v := .V3) (prims.p384Public key.key)
          ⟨hfit.header, hfit.message, hfit.footer, hfit.implicit⟩
          ⟨hfit'.header, hfit'.message, hfit'.footer, hfit'.implicit⟩ hab
        exact ⟨rfl, (header_inj e1).2.2, e2, e3, e4⟩
      · exact .inr (.inr (.inl ⟨rfl, hab, e2⟩))
    · exact .inr (.inl hc)
  · refine .inr (.inr (.inr ⟨k, k', hk, hk', ?_⟩))
    rw [← Nat.cast_add, CharP.cast_eq_zero_iff (ZMod p384Order) p384Order] at e
    obtain ⟨c, hc⟩ := e
    have : c = 1 := by
      rcases c with _ | _ | c
      · omega
      · rfl
      · rw [show p384Order * (c + 1 + 1) = p384Order * c + p384Order + p384Order by ring] at hc
        omega
    rw [hc, this, mul_one]

/-- V4: two accepted tokens with the same first half of the signature and different challenges give
the secret scalar away. -/
theorem v4_repeated {key : Key prims .V4 .Secret} {suf m f i sig suf' m' f' i' sig' : Bytes}
    (h : Accepted key.publicKey suf m f i sig) (h' : Accepted key.publicKey suf' m' f' i' sig')
    (hR : sig.take 32 = sig'.take 32)
    (hc : challengeNumber key (sig.take 32) suf m f i % ed25519Order ≠
      challengeNumber key (sig'.take 32) suf' m' f' i' % ed25519Order) :
    (secretScalar key : ZMod ed25519Order) =
      ((leNat (sig.drop 32) : ZMod ed25519Order) - leNat (sig'.drop 32)) /
      ((challengeNumber key (sig.take 32) suf m f i : ZMod ed25519Order) -
        challengeNumber key (sig'.take 32) suf' m' f' i') := by
  obtain ⟨s, rfl, hv⟩ := accepted_sig h
  obtain ⟨s', rfl, hv'⟩ := accepted_sig h'
  obtain ⟨A, hA, rA⟩ := E25519.decode_enc (secretScalar key • E25519.B)
  rw [← v4_public_val] at hA
  have hv := (E25519.verify_iff hA rA).1 hv
  have hv' := (E25519.verify_iff hA rA).1 hv'
  have hq : ∀ R suf m f i : Bytes, E25519.challenge R (key.publicKey.key : Real.EdKey).1.1
      (Spec.v4Signed (header .V4 .Public suf) m f i) =
      challengeNumber key R suf m f i % ed25519Order := by
    intro R suf m f i
    unfold E25519.challenge challengeNumber signedV4
    rw [v4_public_bytes]
  rw [hq] at hv hv'
  generalize challengeNumber key (s.1.take 32) suf m f i = c at *
  generalize challengeNumber key (s'.1.take 32) suf' m' f' i' = c' at *
  have e := E25519.enc_inj (Subtype.ext ((hv.2.trans hR).trans hv'.2.symm))
  generalize leNat (s.1.drop 32) = t at *
  generalize leNat (s'.1.drop 32) = t' at *
  generalize secretScalar key = a at *
  rw [smul_neg, smul_neg, ← sub_eq_add_neg, ← sub_eq_add_neg, sub_eq_sub_iff_add_eq_add,
    ← mul_nsmul', ← mul_nsmul', ← add_nsmul, ← add_nsmul, nsmul_eq_nsmul_iff_modEq,
    E25519.addOrder, ← ZMod.natCast_eq_natCast_iff] at e
  push_cast at e
  rw [ZMod.natCast_mod, ZMod.natCast_mod] at e
  have hne : (c : ZMod ed25519Order) - c' ≠ 0 := by
    rw [sub_ne_zero]
    exact fun h => hc ((ZMod.natCast_eq_natCast_iff' _ _ _).1 h)
  rw [eq_div_iff hne]
  linear_combination -e

/-- V3: two accepted tokens with the same first half of the signature and different digests give
the secret key away: it is one of two numbers that can be read off the tokens. (Excepted are
signatures whose first number is below `2^190`.) -/
theorem v3_repeated {key : Key prims .V3 .Secret} {suf m f i sig suf' m' f' i' sig' : Bytes}
    (h : Accepted key.publicKey suf m f i sig) (h' : Accepted key.publicKey suf' m' f' i' sig')
    (hR : sig.take 48 = sig'.take 48) (hbig : 2 ^ 190 ≤ beNat (sig.take 48))
    (hz : digestNumber key suf m f i % p384Order ≠ digestNumber key suf' m' f' i' % p384Order) :
    let r : ZMod p384Order := beNat (sig.take 48)
    let s : ZMod p384Order := beNat (sig.drop 48)
    let s' : ZMod p384Order := beNat (sig'.drop 48)
    let z : ZMod p384Order := digestNumber key suf m f i
    let z' : ZMod p384Order := digestNumber key suf' m' f' i'
    (beNat key.toBytes.1 : ZMod p384Order) = (s * z' - s' * z) / (r * (s' - s)) ∨
    (beNat key.toBytes.1 : ZMod p384Order) = -(s * z' + s' * z) / (r * (s' + s)) := by
  obtain ⟨g, rfl, -, hv⟩ := accepted_sig h
  obtain ⟨g', rfl, -, hv'⟩ := accepted_sig h'
  have hv := (E384.verify_iff (E384.xy_public key.key) _ _).1 hv
  have hv' := (E384.verify_iff (E384.xy_public key.key) _ _).1 hv'
  have hd : beNat (prims.sha384 (Spec.v3Signed prims key.publicKey.key
      (header .V3 .Public suf) m f i)).1 = digestNumber key suf m f i := rfl
  have hd' : beNat (prims.sha384 (Spec.v3Signed prims key.publicKey.key
      (header .V3 .Public suf') m' f' i')).1 = digestNumber key suf' m' f' i' := rfl
  have hk : beNat key.key.1.1 = beNat key.toBytes.1 := rfl
  rw [hd, hk] at hv
  rw [hd', hk, ← hR] at hv'
  generalize digestNumber key suf m f i = z at *
  generalize digestNumber key suf' m' f' i' = z' at *
  generalize beNat (g.1.take 48) = r at *
  generalize beNat (g.1.drop 48) = s at *
  generalize beNat (g'.1.drop 48) = s' at *
  generalize beNat key.toBytes.1 = d at *
  obtain ⟨hr, hs, x, y, hn, hg, hx⟩ := hv
  obtain ⟨_, hs', x', y', hn', hg', hx'⟩ := hv'
  have sne : (s : ZMod p384Order) ≠ 0 := (E384.cast_inv_n hs.1 hs.2).2
  have sne' : (s' : ZMod p384Order) ≠ 0 := (E384.cast_inv_n hs'.1 hs'.2).2
  have rne : (r : ZMod p384Order) ≠ 0 := (E384.cast_inv_n hr.1 hr.2).2
  have zne : (z : ZMod p384Order) ≠ z' := fun h => hz ((ZMod.natCast_eq_natCast_iff' _ _ _).1 h)
  have nums : ∀ w t : ℕ, ((w : ZMod p384Order) * (t : ZMod p384Order)⁻¹).val • E384.base +
      ((r : ZMod p384Order) * (t : ZMod p384Order)⁻¹).val • d • E384.base =
      (((w : ZMod p384Order) + r * d) * (t : ZMod p384Order)⁻¹).val • E384.base := by
    intro w t
    rw [← mul_nsmul', ← add_nsmul]
    apply E384.smul_congr'
    show ((_ : ℕ) : ZMod p384Order) = ((_ : ℕ) : ZMod p384Order)
    push_cast
    simp only [ZMod.natCast_val, ZMod.cast_id', id]
    ring
  have hg := (nums z s).symm.trans hg
  have hg' := (nums z' s').symm.trans hg'
  rcases same_x hg hg' hx hx' (Nat.le_trans (by decide +kernel) hbig) with e | e
  · left
    simp only [ZMod.natCast_val, ZMod.cast_id', id] at e
    have e : ((z : ZMod p384Order) + r * d) * s' = (z' + r * d) * s := by
      field_simp at e
      linear_combination e
    have hne : (s' : ZMod p384Order) - s ≠ 0 := by
      intro h0
      have h0 := sub_eq_zero.1 h0
      rw [h0] at e
      exact zne (add_right_cancel (mul_right_cancel₀ sne e))
    rw [eq_div_iff (mul_ne_zero rne hne)]
    linear_combination e
  · right
    simp only [ZMod.natCast_val, ZMod.cast_id', id] at e
    have e : ((z : ZMod p384Order) + r * d) * s' + (z' + r * d) * s = 0 := by
      field_simp at e
      linear_combination e
    have hne : (s' : ZMod p384Order) + s ≠ 0 := by
      intro h0
      have h0 : (s' : ZMod p384Order) = -s := eq_neg_of_add_eq_zero_left h0
      rw [h0] at e
      have : ((z' : ZMod p384Order) - z) * s = 0 := by linear_combination e
      exact zne (sub_eq_zero.1 ((mul_eq_zero.1 this).resolve_right sne)).symm
    rw [eq_div_iff (mul_ne_zero rne hne)]
    linear_combination e

/-! ### The hypotheses can be met -/

theorem accepted_of {v : Ver} {key : Key prims v .Public} {m f i sig : Bytes}
    (hfit : PartsFit (header v .Public (asc "r")) (m ++ sig) f i)
    (h : Spec.sigValid prims v key.key (header v .Public (asc "r")) m f i sig) :
    Accepted key (asc "r") m f i sig := by
  let t : SecuredToken v .Public Bytes Sample.Raw :=
    { payload := m ++ sig, encodedFooter := f, footer := [], encoding := ⟨⟩ }
  obtain ⟨h1, h2⟩ := (C04.verify_accepts_iff (M := Bytes) prims t key i hfit).2 ⟨m, sig, rfl, h⟩
  exact ⟨Bytes, Bytes, Sample.Raw, _, _, t, h1, h2, rfl, rfl, rfl,
    C04.sigValid_length prims _ _ _ _ _ _ h, hfit⟩

/-- A V4 signature made with the scalar and the nonce 1 -/
def badSigV4 (key : Key prims .V4 .Secret) (m : Bytes) : Bytes :=
  let R := (E25519.enc (1 • E25519.B)).1
  R ++ leBytes 32 ((1 + challengeNumber key R (asc "r") m [] [] % ed25519Order *
    secretScalar key) % ed25519Order)

theorem badSigV4_accepted (key : Key prims .V4 .Secret) (m : Bytes) (hm : m.length < 900) :
    Accepted key.publicKey (asc "r") m [] [] (badSigV4 key m) := by
  have hR := (E25519.enc (1 • E25519.B)).2
  have hl : (badSigV4 key m).length = 64 := by
    unfold badSigV4
    rw [List.length_append, hR, leBytes_length]
  refine accepted_of (sample_partsFit _ _ _ _ _ (by rw [List.length_append, hl]; omega) (by decide)
    (by decide)) ⟨⟨badSigV4 key m, hl⟩, rfl, ?_⟩
  obtain ⟨A, hA, rA⟩ := E25519.decode_enc (secretScalar key • E25519.B)
  rw [← v4_public_val] at hA
  refine (E25519.verify_iff hA rA).2 ?_
  have hq : E25519.challenge (E25519.enc (1 • E25519.B)).1 (key.publicKey.key : Real.EdKey).1.1
      (Spec.v4Signed (header .V4 .Public (asc "r")) m [] []) =
      challengeNumber key (E25519.enc (1 • E25519.B)).1 (asc "r") m [] [] % ed25519Order := by
    unfold E25519.challenge challengeNumber signedV4
    rw [v4_public_bytes]
  unfold badSigV4
  simp only [List.take_left' hR, List.drop_left' hR, leNat_leBytes]
  rw [Nat.mod_eq_of_lt ((Nat.mod_lt _ E25519.order_pos).trans E25519.order_lt), hq,
    E25519.sign_eq]
  exact ⟨Nat.mod_lt _ E25519.order_pos, rfl⟩

/-- The V4 secret key with the seed 0 -/
def keyZero : Key prims .V4 .Secret := ⟨⟨List.replicate 32 0, by rfl⟩⟩

theorem keyZero_public : keyZero.publicKey.toBytes.1 = leBytes 32
    0x29da598ba148c03aa643e21d77153265730d6f2ad0a8a3622da4b6cebc276a3b := by
  decide +kernel

/-- Signatures of two messages with one nonce, as `v4_repeated` asks for. -/
example : ∃ (key : Key prims .V4 .Secret) (sig sig' : Bytes),
    Accepted key.publicKey (asc "r") (asc "hi") [] [] sig ∧
    Accepted key.publicKey (asc "r") (asc "ho") [] [] sig' ∧ sig.take 32 = sig'.take 32 ∧
    challengeNumber key (sig.take 32) (asc "r") (asc "hi") [] [] % ed25519Order ≠
      challengeNumber key (sig'.take 32) (asc "r") (asc "ho") [] [] % ed25519Order := by
  have hR := (E25519.enc (1 • E25519.B)).2
  have ht : ∀ m, (badSigV4 keyZero m).take 32 = (E25519.enc (1 • E25519.B)).1 :=
    fun m => List.take_left' hR
  refine ⟨keyZero, _, _, badSigV4_accepted _ _ (by decide), badSigV4_accepted _ _ (by decide),
    by rw [ht, ht], ?_⟩
  rw [ht, ht, one_nsmul, ← E25519.encode_rep E25519.rep_base]
  unfold challengeNumber
  rw [keyZero_public]
  decide +kernel

/-- The V3 secret key 1 -/
def keyOne : Key prims .V3 .Secret := ⟨⟨⟨beBytes 48 1, by rfl⟩, by decide +kernel⟩⟩

theorem keyOne_public : (prims.p384Compress (prims.p384Public keyOne.key)).1 = beBytes 49
    0x3aa87ca22be8b05378eb1c71ef320ad746e1d3b628ba79b9859f741e082542a385502f25dbf55296c3a545e3872760ab7 := by
  decide +kernel

theorem keyOne_digest : digestNumber keyOne (asc "r") (asc "hi") [] [] = E384.sampleDigest := by
  unfold digestNumber signedV3 Spec.v3Signed
  rw [keyOne_public]
  decide +kernel

def otherDigest : ℕ :=
  0x8e6cfc6a34406494706a30a4ba00cc16b2a7e1a8cc23549ce8a9044832c53e971a7fe9e45a86bac766d73fa4b77ddf

theorem keyOne_other : digestNumber keyOne (asc "r") (asc "ho") [] [] = otherDigest := by
  unfold digestNumber signedV3 Spec.v3Signed
  rw [keyOne_public]
  decide +kernel

theorem issued_of {v : Ver} {key : Key prims v .Secret} {m f i sig : Bytes}
    (hfit : PartsFit (header v .Public (asc "r")) m f i)
    (h : Spec.sigOf prims v key.key (header v .Public (asc "r")) m f i = some sig) :
    Issued key (asc "r") m f i sig := by
  let b : TokenBuilder v .Public Bytes Bytes Sample.Raw := ⟨⟨⟨⟩, m, f⟩⟩
  rcases signRaw_eq key.key hfit.header hfit.message hfit.footer hfit.implicit with
    ⟨s, h1, h2⟩ | ⟨_, _, h2⟩
  · rw [h] at h2
    cases h2
    exact ⟨Bytes, Bytes, Sample.Raw, _, _, _, b, _,
      (sign_ok_iff b key i _).2 ⟨m, f, s, rfl, rfl, h1, rfl⟩, rfl, rfl, rfl,
      by rw [s.2, sigSize_eq], hfit⟩
  · rw [h] at h2
    cases h2

theorem sigOf_v3 (key : Key prims .V3 .Secret) (suf m s : Bytes) (hl : s.length = 96)
    (h : Real.P384.sign key.key.1.1 (Real.sha384 (signedV3 key suf m [] [])).1 = some s) :
    Spec.sigOf prims .V3 key.key (header .V3 .Public suf) m [] [] = some s := by
  show Option.map (fun s => s.1) ((Real.P384.sign key.key.1.1
      (Real.sha384 (signedV3 key suf m [] [])).1).map (Real.fit 96)) = some s
  rw [h, Option.map_some, Option.map_some, E25519.fit_of_length hl]

/-- A signed V3 token, as `v3_nonce` asks for. -/
example : ∃ sig, Issued keyOne (asc "r") (asc "hi") [] [] sig ∧ 2 ^ 190 ≤ beNat (sig.take 48) := by
  have hd : Real.sha384 (signedV3 keyOne (asc "r") (asc "hi") [] []) =
      ⟨beBytes 48 E384.sampleDigest, beBytes_length _ _⟩ := by
    apply Subtype.ext
    rw [← keyOne_digest]
    unfold digestNumber
    have := beBytes_beNat (Real.sha384 (signedV3 keyOne (asc "r") (asc "hi") [] [])).1
    rw [len] at this
    exact this.symm
  obtain ⟨s, h1, h2⟩ := (Option.any_eq_true _ _).1 E384.sample_sign
  have hl := E384.sign_length h1
  refine ⟨s, issued_of (sample_partsFit _ _ _ _ _ (by decide) (by decide) (by decide)) ?_,
    of_decide_eq_true h2⟩
  refine sigOf_v3 keyOne _ _ _ hl ?_
  rw [hd]
  exact h1

/-- Every V4 key signs, as `v4_nonce` asks for. -/
example (key : Key prims .V4 .Secret) : ∃ sig, Issued key (asc "r") (asc "hi") [] [7] sig :=
  ⟨_, issued_of (sample_partsFit _ _ _ _ _ (by decide) (by decide) (by decide)) rfl⟩

/-- A V3 signature with the key 1 and the nonce 1 of a digest -/
def badSigV3 (z : ℕ) : Bytes :=
  beBytes 48 Real.P384.gx ++ beBytes 48 ((z + Real.P384.gx) % p384Order)

theorem accepted_v3 (key : Key prims .V3 .Secret) (m sig : Bytes) (z : ℕ) (hm : m.length < 900)
    (hl : sig.length = 96) (hz : digestNumber key (asc "r") m [] [] = z) (h0 : p384SigOk ⟨sig, hl⟩)
    (hv : Real.P384.verify (Real.xy (prims.p384Public key.key)) (beBytes 48 z) sig = true) :
    Accepted key.publicKey (asc "r") m [] [] sig := by
  refine accepted_of (sample_partsFit _ _ _ _ _ (by rw [List.length_append, hl]; omega) (by decide)
    (by decide)) ⟨⟨sig, hl⟩, rfl, h0, ?_⟩
  have hd : beBytes 48 z = (Real.sha384 (signedV3 key (asc "r") m [] [])).1 := by
    rw [← hz]
    unfold digestNumber
    have := beBytes_beNat (Real.sha384 (signedV3 key (asc "r") m [] [])).1
    rwa [len] at this
  rw [hd] at hv
  exact hv

theorem badSigV3_length (z : ℕ) : (badSigV3 z).length = 96 := by
  unfold badSigV3
  rw [List.length_append, beBytes_length, beBytes_length]

/-- Signatures of two messages with one nonce, as `v3_repeated` asks for. -/
example : ∃ sig sig' : Bytes, Accepted keyOne.publicKey (asc "r") (asc "hi") [] [] sig ∧
    Accepted keyOne.publicKey (asc "r") (asc "ho") [] [] sig' ∧ sig.take 48 = sig'.take 48 ∧
    2 ^ 190 ≤ beNat (sig.take 48) ∧
    digestNumber keyOne (asc "r") (asc "hi") [] [] % p384Order ≠
      digestNumber keyOne (asc "r") (asc "ho") [] [] % p384Order := by
  refine ⟨_, _, accepted_v3 keyOne _ (badSigV3 E384.sampleDigest) _ (by decide) (badSigV3_length _)
      keyOne_digest (by decide +kernel) (by decide +kernel),
    accepted_v3 keyOne _ (badSigV3 otherDigest) _ (by decide) (badSigV3_length _)
      keyOne_other (by decide +kernel) (by decide +kernel),
    by decide +kernel, by decide +kernel, ?_⟩
  rw [keyOne_digest, keyOne_other]
  decide +kernel

end C86
end Pasta
