import Verif.Lemmas.Fork
import Verif.Lemmas.Public
import Verif.Lemmas.Pae
import Verif.Spec.Signing
import Verif.Curve.Order25519
import Verif.Curve.Mont25519
import Verif.Props.Auth

/-! # Lemmas for C90: made-up signatures, and runs of a forger -/

namespace Pasta.Signing

open Real (prims)
open Real.Ed (base)
open Curve Curve.E25519

/-! ### The group -/

/-- The multiple of the base point, encoded. -/
def code (x : Scalar) : BytesN 32 := enc (x.val • B)

theorem point_natCast (n : ℕ) : ((n : Scalar)).val • B = n • B := by
  rw [ZMod.val_natCast, smul_mod]

theorem point_add (x y : Scalar) : (x + y).val • B = x.val • B + y.val • B := by
  rw [← add_nsmul, ← point_natCast (x.val + y.val), Nat.cast_add, ZMod.natCast_zmod_val,
    ZMod.natCast_zmod_val]

theorem point_mul (n : ℕ) (y : Scalar) : ((n : Scalar) * y).val • B = n • y.val • B := by
  rw [← mul_nsmul', ← point_natCast (n * y.val), Nat.cast_mul, ZMod.natCast_zmod_val]

theorem point_sub (x y : Scalar) : (x - y).val • B = x.val • B - y.val • B := by
  rw [eq_sub_iff_add_eq, ← point_add, sub_add_cancel]

theorem code_inj {x y : Scalar} (h : code x = code y) : x = y :=
  ZMod.val_injective _ (smul_inj (ZMod.val_lt x) (ZMod.val_lt y) (enc_inj h))

theorem encode_smul (n : ℕ) : (base.smul n).encode = enc (n • B) := encode_rep (rep_smul rep_base n)

theorem encode_nonce (x : Scalar) : (base.smul x.val).encode = code x := encode_smul _

theorem publicKey_eq (seed : BytesN 32) : publicKey seed = enc ((secretScalar seed).val • B) := by
  unfold publicKey secretScalar
  rw [publicBytes_eq, expand_eq, point_natCast]
  rfl

/-- `s B - k A` -/
theorem combine (seed : BytesN 32) : ∃ A, Real.Ed.decode (publicKey seed).1 = some A ∧ ∀ (s k : ℕ),
    ((base.smul s).add (A.neg.smul k)).encode = code ((s : Scalar) - (k : Scalar) * secretScalar seed) := by
  obtain ⟨A, hA, rA⟩ := decode_enc ((secretScalar seed).val • B)
  refine ⟨A, by rw [publicKey_eq]; exact hA, fun s k => ?_⟩
  rw [encode_rep (rep_add (rep_smul rep_base s) (rep_smul (rep_neg rA) k))]
  unfold code
  rw [point_sub, point_mul, point_natCast, smul_neg, ← sub_eq_add_neg]

theorem commitment_eq (seed : BytesN 32) (s k : Scalar) :
    commitment (publicKey seed) s k = code (s - k * secretScalar seed) := by
  obtain ⟨A, hA, h⟩ := combine seed
  have h := h s.val k.val
  rw [ZMod.natCast_zmod_val, ZMod.natCast_zmod_val] at h
  unfold commitment
  simp only [hA, Option.getD_some, h]

theorem join_val (R : BytesN 32) (s : Scalar) : (join R s).1 = R.1 ++ leBytes 32 s.val :=
  fit_of_length (by rw [List.length_append, R.2, leBytes_length])

theorem join_take (R : BytesN 32) (s : Scalar) : (join R s).1.take 32 = R.1 := by
  rw [join_val, List.take_left' R.2]

theorem signature_eq (seed : BytesN 32) (nonce : Bytes → Scalar) (chal : Bytes → BytesN 64) (m : Bytes) :
    signature seed nonce chal m = join (code (nonce m)) (nonce m +
      number (chal (challengeInput (code (nonce m)).1 (publicKey seed).1 m)) * secretScalar seed) := by
  unfold signature
  simp only [encode_nonce]

theorem verifies_iff (seed : BytesN 32) (chal : Bytes → BytesN 64) (m sig : Bytes) :
    verifies chal (publicKey seed).1 m sig = true ↔ leNat (sig.drop 32) < ed25519Order ∧
      (code ((leNat (sig.drop 32) : ℕ) -
        number (chal (challengeInput (sig.take 32) (publicKey seed).1 m)) * secretScalar seed)).1 =
        sig.take 32 := by
  obtain ⟨A, hA, h⟩ := combine seed
  unfold verifies
  rw [hA, Option.any_some]
  simp only [h, Bool.and_eq_true, decide_eq_true_eq, beq_iff_eq, ZMod.natCast_mod]
  rfl

/-- The second half is determined by the first. -/
theorem sig_unique (seed : BytesN 32) (chal : Bytes → BytesN 64) (m sig : Bytes) (r : Scalar)
    (hl : sig.length = 64) (hv : verifies chal (publicKey seed).1 m sig = true)
    (hR : sig.take 32 = (code r).1) :
    sig = (join (code r) (r + number (chal (challengeInput (code r).1 (publicKey seed).1 m)) *
      secretScalar seed)).1 := by
  obtain ⟨hs, he⟩ := (verifies_iff seed chal m sig).1 hv
  rw [hR] at he
  have he := code_inj (Subtype.ext he)
  rw [sub_eq_iff_eq_add] at he
  rw [join_val, ← he, ZMod.val_natCast, Nat.mod_eq_of_lt hs, ← hR]
  have hd : (sig.drop 32).length = 32 := by rw [List.length_drop, hl]
  have := leBytes_leNat (sig.drop 32)
  rw [hd] at this
  rw [this, List.take_append_drop]

theorem edPublic_publicKey (seed : BytesN 32) : (prims.edPublic seed : Real.EdKey).1 = publicKey seed := by
  rw [edPublic_val, publicKey_eq]
  unfold secretScalar
  rw [point_natCast, expand_eq]
  rfl

/-! ### Requests -/

/-- The bytes that a request has signed. -/
def Ask.raw : Ask → Option Bytes
  | .sign _ _ E iP iM iF b implicit =>
    let _ := iP; let _ := iM; let _ := iF
    match MessageEncoding.encode b.tok.encoding b.tok.message, Footer.encode b.tok.footer with
    | .ok m, some f => some (Spec.v4Signed (Spec.header .V4 .Public (Payload.suffix E)) m f implicit)
    | _, _ => none
  | .hash _ => none

theorem fits_of_signed {M : Nat} (hM : M < 2 ^ 62) {h m f i : Bytes}
    (hl : (Spec.v4Signed h m f i).length ≤ M) : Spec.Fits h ∧ Spec.Fits m ∧ Spec.Fits f ∧ Spec.Fits i := by
  simp only [Spec.v4Signed, Spec.PAE, List.map_cons, List.map_nil, List.flatten_cons, List.flatten_nil,
    List.append_nil, List.length_append, Pasta.LE64_length] at hl
  unfold Spec.Fits
  refine ⟨?_, ?_, ?_, ?_⟩ <;> omega

theorem run_fixed (a : Ask) (hi : a.input = none) (hr : a.raw = none) :
    ∃ r, (∀ text, r ≠ .token (.ok text)) ∧ ∀ sgn chal k, a.run (primsWith sgn chal) ⟨k⟩ chal = r := by
  cases a with
  | hash x => cases hi
  | sign Mt F E iP iM iF b i =>
    let _ := iP; let _ := iM; let _ := iF
    have hrun : ∀ sgn chal (k : BytesN 32), (Ask.sign Mt F E iP iM iF b i).run (primsWith sgn chal) ⟨k⟩ chal =
        .token (b.signWithAssertions (primsWith sgn chal) ⟨k⟩ i >>= fun t => .ok t.display) :=
      fun _ _ _ => rfl
    unfold Ask.raw at hr
    simp only at hr
    simp only [hrun]
    unfold TokenBuilder.signWithAssertions
    cases hm : MessageEncoding.encode b.tok.encoding b.tok.message with
    | error e =>
      refine ⟨.token (.err (.payloadError e)), nofun, fun _ _ _ => rfl⟩
    | ok m =>
      cases hf : Footer.encode b.tok.footer with
      | none => exact ⟨.token .panic, nofun, fun _ _ _ => rfl⟩
      | some f =>
        rw [hm, hf] at hr
        cases hr

theorem run_signed {M : Nat} (hM : M < 2 ^ 62) (a : Ask) (hs : a.Short M) {m : Bytes}
    (hr : a.raw = some m) :
    m.length ≤ M ∧ ∃ suf msg f i, m = Spec.v4Signed (Spec.header .V4 .Public suf) msg f i ∧
      (∀ sgn chal k, a.run (primsWith sgn chal) ⟨k⟩ chal = .token (.ok
        (Spec.tokenText (Spec.header .V4 .Public suf) (msg ++ (sgn m).1) f))) ∧
      ∀ text rest, (text, i) ∈ issued ((a, .token (.ok text)) :: rest) := by
  cases a with
  | hash x => cases hr
  | sign Mt F E iP iM iF b i =>
    let _ := iP; let _ := iM; let _ := iF
    unfold Ask.raw at hr
    simp only at hr
    cases hm : MessageEncoding.encode b.tok.encoding b.tok.message with
    | error e => rw [hm] at hr; cases hr
    | ok msg =>
      cases hf : Footer.encode b.tok.footer with
      | none => rw [hm, hf] at hr; cases hr
      | some f =>
        rw [hm, hf] at hr
        cases hr
        have hl := hs msg f hm hf
        obtain ⟨h1, h2, h3, h4⟩ := fits_of_signed hM hl
        refine ⟨hl, Payload.suffix E, msg, f, i, rfl, fun sgn chal k => ?_, fun text rest => ?_⟩
        · show Answer.token (b.signWithAssertions (primsWith sgn chal) ⟨k⟩ i >>= fun t => .ok t.display) = _
          have e := (sign_ok_iff (P := primsWith sgn chal) b ⟨k⟩ i
            { encoding := b.tok.encoding, footer := b.tok.footer, encodedFooter := f,
              payload := msg ++ (sgn (v4PublicPreAuth (Payload.suffix E) msg f i)).1 }).2
            ⟨msg, f, sgn (v4PublicPreAuth (Payload.suffix E) msg f i), hm, hf, rfl, rfl⟩
          rw [e, Res.ok_bind, SecuredToken.display_eq, v4PublicPreAuth_eq h1 h2 h3 h4]
        · unfold issued
          rw [List.filterMap_cons]
          exact List.mem_cons_self

/-- What an answer depends on. -/
theorem run_congr {M : Nat} (hM : M < 2 ^ 62) {sgn sgn' chal chal' : Bytes → BytesN 64} (k k' : BytesN 32)
    (a : Ask) (hs : a.Short M) (h1 : ∀ m, a.raw = some m → sgn m = sgn' m)
    (h2 : ∀ x, a.input = some x → chal x = chal' x) :
    a.run (primsWith sgn chal) ⟨k⟩ chal = a.run (primsWith sgn' chal') ⟨k'⟩ chal' := by
  cases hi : a.input with
  | some x =>
    cases a with
    | sign => cases hi
    | hash y =>
      cases hi
      show Answer.hash _ = Answer.hash _
      rw [h2 _ rfl]
  | none =>
    cases hr : a.raw with
    | none =>
      obtain ⟨r, -, h⟩ := run_fixed a hi hr
      rw [h, h]
    | some m =>
      obtain ⟨-, suf, msg, f, i, -, h, -⟩ := run_signed hM a hs hr
      rw [h, h, h1 m hr]

theorem issued_mem {log : Log} {e : Ask × Answer} (he : e ∈ log) {p : Bytes × Bytes}
    (h : ∀ rest, p ∈ issued (e :: rest)) : p ∈ issued log := by
  have : p ∈ issued [e] := h []
  unfold issued at this ⊢
  rw [List.mem_filterMap] at this ⊢
  obtain ⟨e', he', h'⟩ := this
  rw [List.mem_singleton] at he'
  exact ⟨e, he, he' ▸ h'⟩

/-! ### Claims -/

theorem forged_signed {M : Nat} (hM : M < 2 ^ 62) {sgn chal : Bytes → BytesN 64} (seed k : BytesN 32)
    {log : Log} {c : Claim} (hc : c.Short M) (hlog : ∀ e ∈ log, e.1.Short M ∧
      e.2 = e.1.run (primsWith sgn chal) ⟨k⟩ chal)
    (h : Forged (primsWith sgn chal) ⟨prims.edPublic seed⟩ log c) :
    ∃ raw sig, c.signed = some (raw, sig) ∧ raw.length ≤ M ∧ sig.length = 64 ∧
      verifies chal (publicKey seed).1 raw sig = true ∧
      ∀ e ∈ log, e.1.raw = some raw → (sgn raw).1 ≠ sig := by
  obtain ⟨Mt, F, E, iP, iM, iF, text, imp⟩ := c
  let _ := iP; let _ := iM; let _ := iF
  obtain ⟨t, ht, hok, hnp, hni⟩ := h
  change SecuredToken.parse .V4 .Public F E text = .ok t at ht
  change t.verifyWithAssertions Mt (primsWith sgn chal) _ imp ≠ _ at hok
  change t.verifyWithAssertions Mt (primsWith sgn chal) _ imp ≠ _ at hnp
  change (t.display, imp) ∉ issued log at hni
  have hlen : 64 ≤ t.payload.length := by
    by_contra hlt
    exact hnp (verify_short (v := .V4) t _ imp (Nat.lt_of_not_le hlt))
  let l := t.payload.length - 64
  have hsl : (t.payload.drop l).length = 64 := by rw [List.length_drop]; omega
  have hsig : Claim.signed ⟨Mt, F, E, iP, iM, iF, text, imp⟩ = some (Spec.v4Signed (Spec.header .V4 .Public
      (Payload.suffix E)) (t.payload.take l) t.encodedFooter imp, t.payload.drop l) := by
    unfold Claim.signed
    simp only [ht]
    rw [if_pos hlen]
  have hshort := hc _ hsig
  have hfit := fits_of_signed hM hshort
  refine ⟨_, _, hsig, hshort, hsl, ?_, ?_⟩
  · let s : BytesN 64 := ⟨t.payload.drop l, hsl⟩
    have hsplit := verify_split (P := primsWith sgn chal) (M := Mt) t ⟨prims.edPublic seed⟩ imp
      (t.payload.take l) (s : BytesN (sigSize .V4)) (List.take_append_drop l _).symm
    have hraw : verifyRaw (primsWith sgn chal) .V4 (prims.edPublic seed) (Payload.suffix E)
        (t.payload.take l) t.encodedFooter imp s = .ok (verifies chal (publicKey seed).1
        (Spec.v4Signed (Spec.header .V4 .Public (Payload.suffix E)) (t.payload.take l) t.encodedFooter imp)
        s.1) := by
      rw [← v4PublicPreAuth_eq hfit.1 hfit.2.1 hfit.2.2.1 hfit.2.2.2, ← edPublic_publicKey]
      rfl
    by_contra hv
    rw [Bool.not_eq_true] at hv
    refine hok (hsplit.trans ?_)
    refine (congrArg (· >>= _) hraw).trans ?_
    show (Res.ok (verifies _ _ _ _) >>= _) = _
    rw [hv, Res.ok_bind]
    rfl
  · intro e he hr hs
    obtain ⟨-, suf, msg, f, i, hm, hrun, hiss⟩ := run_signed hM e.1 (hlog e he).1 hr
    rw [hm] at hshort
    obtain ⟨e1, e2, e3, e4⟩ := PAE_inj4 hfit (fits_of_signed hM hshort) hm
    refine hni (issued_mem he fun rest => ?_)
    have he2 := (hlog e he).2
    rw [hrun, hs, ← e1, ← e2, ← e3, List.take_append_drop, ← SecuredToken.display_eq] at he2
    obtain ⟨a, r⟩ := e
    change r = _ at he2
    rw [he2, e4]
    exact hiss _ _

/-! ### Runs -/

section runs

variable (run : Ask → Answer) (ask : List Answer → Option Ask)

/-- What a run adds. -/
def news : (n q : Nat) → Log → Log
  | 0, _, _ => []
  | n + 1, q, log =>
    match ask (log.map Prod.snd) with
    | none => []
    | some a =>
      if a.input.isSome then
        match q with
        | 0 => []
        | q + 1 => (a, run a) :: news n q (log ++ [(a, run a)])
      else (a, run a) :: news n q (log ++ [(a, run a)])

theorem play_eq : ∀ n q log, play run ask n q log = log ++ news run ask n q log := by
  intro n
  induction n with
  | zero => intro q log; exact (List.append_nil _).symm
  | succ n ih =>
    intro q log
    unfold play news
    cases ask (log.map Prod.snd) with
    | none => exact (List.append_nil _).symm
    | some a =>
      simp only
      split
      · cases q with
        | zero => exact (List.append_nil _).symm
        | succ q => simp only [ih, List.append_assoc, List.singleton_append]
      · simp only [ih, List.append_assoc, List.singleton_append]

theorem news_log : ∀ n q log, ∀ e ∈ news run ask n q log,
    e.2 = run e.1 ∧ ∃ answers, ask answers = some e.1 := by
  intro n
  induction n with
  | zero => intro q log e he; cases he
  | succ n ih =>
    intro q log e he
    unfold news at he
    cases ha : ask (log.map Prod.snd) with
    | none => rw [ha] at he; cases he
    | some a =>
      rw [ha] at he
      simp only at he
      have key : ∀ q, e ∈ (a, run a) :: news run ask n q (log ++ [(a, run a)]) →
          e.2 = run e.1 ∧ ∃ answers, ask answers = some e.1 := by
        intro q he
        rcases List.mem_cons.1 he with rfl | he
        · exact ⟨rfl, _, ha⟩
        · exact ih _ _ _ he
      split at he
      · cases q with
        | zero => cases he
        | succ q => exact key _ he
      · exact key _ he

variable {run ask}

theorem news_congr {run' : Ask → Answer} : ∀ n q log,
    (∀ e ∈ news run ask n q log, run' e.1 = run e.1) → news run' ask n q log = news run ask n q log := by
  intro n
  induction n with
  | zero => intro q log _; rfl
  | succ n ih =>
    intro q log h
    unfold news at h ⊢
    cases ha : ask (log.map Prod.snd) with
    | none => rfl
    | some a =>
      rw [ha] at h
      simp only at h ⊢
      split at h
      · rename_i hi
        rw [if_pos hi, if_pos hi]
        cases q with
        | zero => rfl
        | succ q =>
          simp only at h ⊢
          have h1 : run' a = run a := h _ List.mem_cons_self
          rw [h1, ih _ _ fun e he => h e (List.mem_cons_of_mem _ he)]
      · rename_i hi
        rw [if_neg hi, if_neg hi]
        have h1 : run' a = run a := h _ List.mem_cons_self
        rw [h1, ih _ _ fun e he => h e (List.mem_cons_of_mem _ he)]

end runs

/-! ### Which hashes are computed -/

section points

variable {M : Nat}

/-- The short input of a request. -/
def Ask.place (M : Nat) (a : Ask) : Option (ShortBytes (M + 64)) :=
  match a.input with
  | some x => if h : x.length ≤ M + 64 then some ⟨x, h⟩ else none
  | none => none

theorem points_eq (pk : BytesN 32) (log : Log) (c : Claim) :
    (points pk log c : List (ShortBytes (M + 64))) =
      log.filterMap (fun e => e.1.place M) ++ [c.point pk] := rfl

theorem place_input {a : Ask} {y : ShortBytes (M + 64)} (h : a.place M = some y) : a.input = some y.1 := by
  unfold Ask.place at h
  split at h
  · rename_i x hx
    split at h
    · cases h
      exact hx
    · cases h
  · cases h

theorem news_length (run : Ask → Answer) (ask : List Answer → Option Ask) : ∀ n q log,
    ((news run ask n q log).filterMap fun e => e.1.place M).length ≤ q := by
  intro n
  induction n with
  | zero => intro q log; exact Nat.zero_le _
  | succ n ih =>
    intro q log
    unfold news
    cases ha : ask (log.map Prod.snd) with
    | none => exact Nat.zero_le _
    | some a =>
      simp only
      split
      · cases q with
        | zero => exact Nat.zero_le _
        | succ q =>
          simp only [List.filterMap_cons]
          split
          · exact Nat.le_succ_of_le (ih _ _)
          · exact Nat.succ_le_succ (ih _ _)
      · rename_i hi
        have hp : a.place M = none := by
          unfold Ask.place
          rw [Option.not_isSome_iff_eq_none.1 hi]
        simp only [List.filterMap_cons, hp]
        exact ih _ _

/-- The first places at which two runs ask are the same, one more than those at which the answers
agree. -/
theorem news_adaptive {run run' : Ask → Answer} {ask : List Answer → Option Ask}
    (goal : Log → ShortBytes (M + 64)) (agree : ShortBytes (M + 64) → Prop)
    (h1 : ∀ answers a, ask answers = some a → a.place M = none → run' a = run a)
    (h2 : ∀ a y, a.place M = some y → agree y → run' a = run a) : ∀ n q log j,
    (∀ y ∈ ((news run ask n q log).filterMap (fun e => e.1.place M) ++
        [goal (log ++ news run ask n q log)]).take j, agree y) →
      ((news run' ask n q log).filterMap (fun e => e.1.place M) ++
        [goal (log ++ news run' ask n q log)]).take (j + 1) =
      ((news run ask n q log).filterMap (fun e => e.1.place M) ++
        [goal (log ++ news run ask n q log)]).take (j + 1) := by
  intro n
  induction n with
  | zero => intro q log j _; rfl
  | succ n ih =>
    intro q log j h
    unfold news at h ⊢
    cases ha : ask (log.map Prod.snd) with
    | none => rfl
    | some a =>
      rw [ha] at h
      simp only at h ⊢
      have key : ∀ q, (∀ y ∈ (((a, run a) :: news run ask n q (log ++ [(a, run a)])).filterMap
          (fun e => e.1.place M) ++ [goal (log ++ (a, run a) :: news run ask n q (log ++ [(a, run a)]))]).take j,
            agree y) →
          (((a, run' a) :: news run' ask n q (log ++ [(a, run' a)])).filterMap
            (fun e => e.1.place M) ++
            [goal (log ++ (a, run' a) :: news run' ask n q (log ++ [(a, run' a)]))]).take (j + 1) =
          (((a, run a) :: news run ask n q (log ++ [(a, run a)])).filterMap
            (fun e => e.1.place M) ++
            [goal (log ++ (a, run a) :: news run ask n q (log ++ [(a, run a)]))]).take (j + 1) := by
        intro q h
        cases hp : a.place M with
        | none =>
          rw [h1 _ _ ha hp]
          simp only [List.filterMap_cons, hp] at h ⊢
          have := ih q (log ++ [(a, run a)]) j
          simp only [List.append_assoc, List.singleton_append] at this
          exact this h
        | some y =>
          simp only [List.filterMap_cons, hp, List.cons_append, List.take_succ_cons] at h ⊢
          cases j with
          | zero => rfl
          | succ j =>
            rw [List.take_succ_cons] at h
            rw [h2 a y hp (h y List.mem_cons_self)]
            have := ih q (log ++ [(a, run a)]) j
            simp only [List.append_assoc, List.singleton_append] at this
            rw [this fun z hz => h z (List.mem_cons_of_mem _ hz)]
      split at h
      · rename_i hi
        rw [if_pos hi, if_pos hi]
        cases q with
        | zero => rfl
        | succ q => exact key q h
      · rename_i hi
        rw [if_neg hi, if_neg hi]
        exact key q h

end points

end Pasta.Signing
