import Verif.Model.Leakage
import Verif.Lemmas.Pke
import Verif.Lemmas.Pbkw

/-! # Lemmas about the instrumented programs -/

namespace Pasta

namespace Traced

variable {α β : Type}

@[simp] theorem pure_def (a : α) : (pure a : Traced α) = ⟨[], .ok a⟩ := rfl
@[simp] theorem ok_bind (t : List Event) (a : α) (f : α → Traced β) :
    ((⟨t, .ok a⟩ : Traced α) >>= f) = ⟨t ++ (f a).trace, (f a).res⟩ := rfl
@[simp] theorem err_bind (t : List Event) (e : PasetoError) (f : α → Traced β) :
    ((⟨t, .err e⟩ : Traced α) >>= f) = ⟨t, .err e⟩ := rfl
@[simp] theorem panic_bind (t : List Event) (f : α → Traced β) :
    ((⟨t, .panic⟩ : Traced α) >>= f) = ⟨t, .panic⟩ := rfl

theorem bind_res (x : Traced α) (f : α → Traced β) :
    (x >>= f).res = x.res >>= fun a => (f a).res := by
  obtain ⟨t, r⟩ := x
  cases r <;> rfl

@[simp] theorem step_def (e : Event) : step e = ⟨[e], .ok ()⟩ := rfl
@[simp] theorem lift_def (r : Res α) : lift r = ⟨[], r⟩ := rfl
@[simp] theorem prim_def (name : String) (o k m : Nat) (r : Res α) :
    prim name o k m r = ⟨[.prim name o k m], r⟩ := rfl
@[simp] theorem ite_res {c : Prop} [Decidable c] (x y : Traced α) :
    (if c then x else y).res = if c then x.res else y.res := by split <;> rfl
@[simp] theorem ite_trace {c : Prop} [Decidable c] (x y : Traced α) :
    (if c then x else y).trace = if c then x.trace else y.trace := by split <;> rfl

end Traced

/-- The steps of a tag comparison: they depend on the two lengths only. -/
def ctTrace (a b : Nat) : List Event :=
  .lengths a b :: .branch (decide (a ≠ b)) ::
    if a ≠ b then [] else (List.range a).map .position

theorem ctEqLoopT_eq (l : List (UInt8 × UInt8)) (i : Nat) (x : UInt8) :
    ctEqLoopT i l x = ⟨(List.range' i l.length).map .position,
      .ok (l.foldl (fun x p => x &&& u8CtEq p.1 p.2) x)⟩ := by
  induction l generalizing i x with
  | nil => rfl
  | cons p l ih =>
    unfold ctEqLoopT
    rw [ih]
    simp [List.range'_succ]

theorem ctNeT_eq (a b : Bytes) : ctNeT a b = ⟨ctTrace a.length b.length, .ok (ctNe a b)⟩ := by
  unfold ctNeT ctTrace ctNe ctEq
  by_cases h : a.length = b.length
  · simp [ctEqLoopT_eq, h, List.range_eq_range']
  · simp [h]

theorem localPreAuth_length (v : Ver) (suf n c f i : Bytes) :
    (localPreAuth v suf n c f i).length =
      54 + v.pasetoHeader.length + suf.length + n.length + c.length + f.length + i.length + 1 := by
  unfold localPreAuth
  rw [pae_eq]
  have h8 : ∀ n, (leBytes 8 n).length = 8 := Prims.leBytes_length 8
  have h1 : Purpose.Local.header.length = 5 := rfl
  have h2 : (asc ".").length = 1 := rfl
  simp [h8, h1, h2]
  omega

/-- The steps of a decryption up to the verdict: they depend on lengths only. -/
def decryptPrefix (v : Ver) (suf n c tag f i : Nat) : List Event :=
  [.prim "kdf" (keyIvPair v) 32 (21 + n), .prim "kdf" (authKeySize v) 32 (24 + n),
    .prim "mac" (tagSize v) (authKeySize v)
      (54 + v.pasetoHeader.length + suf + n + c + f + i + 1)] ++ ctTrace tag (tagSize v)

theorem genericDecryptT_eq (P : Prims) (v : Ver) (key : BytesN 32) (suf n m tag f i : Bytes) :
    ∃ ne out, genericDecryptT P v key suf n m tag f i =
      ⟨decryptPrefix v suf.length n.length m.length tag.length f.length i.length ++
        (.branch ne :: if ne then [] else [.stream m.length]),
        .ok (if ne then none else some out)⟩ ∧ out.length = m.length := by
  obtain ⟨x, hx, hs⟩ := localKdf_enc P v key n
  obtain ⟨ak, ha, hak⟩ := localKdf_auth P v key n
  obtain ⟨t, ht, htt⟩ := genericDigest_eq P v key ak suf n m f i hak
  refine ⟨ctNe tag t.1, applyKeystream (keyIvStream P v x) m, ?_, applyKeystream_length _ _⟩
  unfold genericDecryptT localKdfT genericDigestT decryptPrefix
  have e1 : (asc "paseto-encryption-key").length = 21 := rfl
  have e2 : (asc "paseto-auth-key-for-aead").length = 24 := rfl
  simp only [Traced.prim_def, hx, ha, ht, Traced.ok_bind, ctNeT_eq, Traced.step_def,
    Traced.ite_trace, Traced.ite_res, Traced.pure_def, localPreAuth_length, key.2, ak.2, t.2]
  cases ctNe tag t.1 <;> simp [e1, e2]

/-- What a password hash costs: memory in KiB, passes, lanes. -/
def kdfCost : {v : Ver} → KdfState v → Event
  | .V3, st => .cost 0 st.iterations.toNat 1
  | .V4, st => .cost (st.mem.toNat / 1024) st.time.toNat st.para.toNat

theorem pwKdfT_eq {P : Prims} {v : Ver} (pw : Bytes) (salt : BytesN (pwSaltLen v)) (st : KdfState v) :
    pwKdfT P v pw salt st =
      if KdfOk st pw then
        ⟨[kdfCost st, .prim "pwKdf" 32 pw.length (pwSaltLen v)], pwKdf P v pw salt st⟩
      else ⟨[], .panic⟩ := by
  cases v
  · rw [if_pos (show KdfOk (v := .V3) st pw from trivial)]
    show Traced.mk [_, .prim _ _ _ salt.1.length] _ = _
    rw [salt.2]
    rfl
  · rw [pwKdf_eq]
    have e := pwKdf_eq (P := P) pw salt st
    unfold pwKdf at e
    unfold pwKdfT
    dsimp only at e ⊢
    by_cases h1 : argon2ParamsOk (st.mem / 1024) st.time st.para
    · rw [if_pos h1] at e ⊢
      by_cases h2 : pw.length ≤ 0xFFFFFFFF
      · have hk : KdfOk (v := .V4) st pw := ⟨h1, h2⟩
        rw [if_pos h2, if_pos hk] at e
        rw [if_pos h2, if_pos hk, if_pos hk, ← e, salt.2]
        rfl
      · rw [if_neg h2, if_neg (fun h : KdfOk (v := .V4) st pw => h2 h.2)]; rfl
    · rw [if_neg h1, if_neg (fun h : KdfOk (v := .V4) st pw => h1 h.1)]; rfl

theorem pwKdfT_res {P : Prims} {v : Ver} (pw : Bytes) (salt : BytesN (pwSaltLen v))
    (st : KdfState v) : (pwKdfT P v pw salt st).res = pwKdf P v pw salt st := by
  rw [pwKdfT_eq]
  by_cases hk : KdfOk st pw
  · rw [if_pos hk]
  · rw [if_neg hk, pwKdf_eq, if_neg hk]

end Pasta
